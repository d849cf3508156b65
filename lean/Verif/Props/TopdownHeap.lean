import Verif.Proofs.TopdownHeap
import Verif.Proofs.TopdownHeapCount
import Verif.Props.TopdownShape
import Verif.Props.TopdownCount
import Verif.Props.TreeHeap
/-
The tree of the top-down parser in memory (C94): which nodes it shares.

Vocabulary (Verif.Spec.TreeHeap): `Rep false h t p a F A` says that the node at `a` is the tree `t`; `F` lists the nodes that it consists of,
each as often as it occurs. `Owns` says in addition that nothing occurs twice.
-/
namespace Verif.Props.TopdownHeap
open Verif.Spec Verif.Spec.PN Verif.TreeHeap Verif.Spec.TreeHeap Verif.TopdownHeap

variable {α V : Type}

mutual
/-- Every node that a tree consists of is the tree or one below it. -/
theorem rep_sub {h : Heap α V} : ∀ {t : PN α V} {p a F A}, Rep false h t p a F A → ∀ x ∈ F, ∃ u p' F' A', (u = t ∨ Below u t) ∧ Rep false h u p' x F' A'
  | .node l ks, p, a, F, A, hr => by
    have hr' := hr
    obtain ⟨c, ar, F', A', h1, h2, h3, h4, h5, h6, rfl, rfl⟩ := hr
    intro x hx
    rcases List.mem_cons.1 hx with rfl | hx
    · exact ⟨_, _, _, _, .inl rfl, hr'⟩
    · obtain ⟨u, p', F2, A2, k, hk, hu, hr2⟩ := reps_sub h6 x hx
      refine ⟨u, p', F2, A2, .inr ?_, hr2⟩
      rcases hu with rfl | hu
      · exact .child hk
      · exact .deeper hk hu
theorem reps_sub {h : Heap α V} : ∀ {ts : List (PN α V)} {p os F A}, Reps false h ts p os F A → ∀ x ∈ F, ∃ u p' F' A', ∃ k ∈ ts, (u = k ∨ Below u k) ∧ Rep false h u p' x F' A'
  | [], _, _, _, _, hr => by
    obtain ⟨_, rfl, _⟩ := hr
    simp
  | t :: ts, _, _, _, _, hr => by
    obtain ⟨a, os', F1, A1, F2, A2, rfl, h1, h2, rfl, rfl⟩ := hr
    intro x hx
    rcases List.mem_append.1 hx with hx | hx
    · obtain ⟨u, p', F', A', hu, hr⟩ := rep_sub h1 x hx
      exact ⟨u, p', F', A', t, by simp, hu, hr⟩
    · obtain ⟨u, p', F', A', k, hk, hu, hr⟩ := reps_sub h2 x hx
      exact ⟨u, p', F', A', k, by simp [hk], hu, hr⟩
end

variable [DecidableEq α]

mutual
/-- Reading the names changes neither the number of lexemes covered nor what is below. -/
theorem name_width {g : Grammar α} {s : SetSymbol.SymSet α} : ∀ {ti : PN Nat V} {t}, Packrat.nameTree s ti = .ok t →
    (ti.fringe fun k => (Packrat.idxProds g s k).isNone).length = width g t ∧
    ∀ u, Below u ti → ∃ u', Packrat.nameTree s u = .ok u' ∧ Below u' t
  | .node l ks, t, e => by
    simp only [Packrat.nameTree] at e
    cases hx : s.symb2str[l.kind]? with
    | none => rw [hx] at e; cases e
    | some x =>
      rw [hx] at e
      obtain ⟨ts, e1, e⟩ := Out.bind_eq_ok.1 e
      cases e
      obtain ⟨h1, h2⟩ := names_width e1
      constructor
      · have hp : (Packrat.idxProds g s l.kind).isNone = (g.prods x).isNone := by simp [Packrat.idxProds, hx]
        simp only [width, fringe, hp]
        by_cases hb : (g.prods x).isNone = true
        · rw [if_pos hb, if_pos hb]
          rfl
        · rw [if_neg hb, if_neg hb]
          exact h1
      · intro u hu
        generalize hn : PN.node l ks = n at hu
        cases hu with
        | child hk =>
          cases hn
          obtain ⟨u', e', k', hk', hu'⟩ := h2 u u hk (.inl rfl)
          refine ⟨u', e', ?_⟩
          rcases hu' with rfl | hu'
          · exact .child hk'
          · exact .deeper hk' hu'
        | deeper hk hb =>
          cases hn
          obtain ⟨u', e', k', hk', hu'⟩ := h2 u _ hk (.inr hb)
          refine ⟨u', e', ?_⟩
          rcases hu' with rfl | hu'
          · exact .child hk'
          · exact .deeper hk' hu'
theorem names_width {g : Grammar α} {s : SetSymbol.SymSet α} : ∀ {ks : List (PN Nat V)} {ts}, Packrat.nameTrees s ks = .ok ts →
    (PN.fringes (fun k => (Packrat.idxProds g s k).isNone) ks).length = (PN.fringes (fun x => (g.prods x).isNone) ts).length ∧
    ∀ u k, k ∈ ks → (u = k ∨ Below u k) → ∃ u', Packrat.nameTree s u = .ok u' ∧ ∃ k' ∈ ts, (u' = k' ∨ Below u' k')
  | [], ts, e => by
    simp only [Packrat.nameTrees] at e
    cases e
    simp [fringes]
  | k :: ks, ts, e => by
    simp only [Packrat.nameTrees] at e
    obtain ⟨t, e1, e⟩ := Out.bind_eq_ok.1 e
    obtain ⟨ts', e2, e⟩ := Out.bind_eq_ok.1 e
    cases e
    obtain ⟨h1, h2⟩ := name_width e1
    obtain ⟨h3, h4⟩ := names_width e2
    constructor
    · simp only [fringes, List.length_append]
      rw [h1, h3]
      rfl
    · intro u k' hk hu
      rcases List.mem_cons.1 hk with rfl | hk
      · rcases hu with rfl | hu
        · exact ⟨t, e1, t, by simp, .inl rfl⟩
        · obtain ⟨u', e', hb⟩ := h2 u hu
          exact ⟨u', e', t, by simp, .inr hb⟩
      · obtain ⟨u', e', k2, hk2, hu'⟩ := h4 u k' hk hu
        exact ⟨u', e', k2, by simp [hk2], hu'⟩
end

/-- Parse in memory, with what is known of it. -/
theorem parse_sim (ev : V) (g : Grammar α) (ls : List (Lexeme α V)) (n : Nat) :
    match Topdown.parse ev g ls n with
    | .ok none => parse ev g ls n = .ok none
    | .ok (some t) => ∃ s h a L i j ti, parse ev g ls n = .ok (some (s, h, a)) ∧ Lab (Packrat.idxProds g s) h L ∧ L[a]? = some (i, j, ti) ∧
        Packrat.nameTree s ti = .ok t
    | .panic => True
    | .fuel => parse ev g ls n = .fuel := by
  unfold Topdown.parse parse
  cases ho : g.order with
  | nil => rfl
  | cons start rest =>
    simp only
    cases hs : Packrat.loadSet g ls with
    | panic => trivial
    | fuel => rfl
    | ok s =>
      simp only [Out.bind_ok]
      have := accept_sim (prods := Packrat.idxProds g s) ev (ls.map fun l => ⟨Packrat.symIdx s l.kind, l.val, l.line, l.col⟩) n ⟨[], []⟩ []
        (fun _ => none) (fun _ => none) (Packrat.symIdx s start) 0 true ⟨⟨rfl, by simp, by simp⟩, fun _ => trivial⟩
      unfold Verif.TopdownHeap.Sim at this
      generalize Topdown.accept ev (Packrat.idxProds g s) (ls.map fun l => ⟨Packrat.symIdx s l.kind, l.val, l.line, l.col⟩) n (fun _ => none) (Packrat.symIdx s start) 0 true = o at this ⊢
      match o, this with
      | .panic, _ => trivial
      | .fuel, h => simp only at h; rw [h]; rfl
      | .ok (m, r), ⟨h', hm', a, L', e, hF, _, hR⟩ =>
        rw [e]
        match r, a, hR with
        | none, none, _ => rfl
        | some r, some a, ⟨_, _, hL⟩ =>
          simp only [Out.bind_ok]
          cases hn : Packrat.nameTree s r.tree with
          | panic => trivial
          | fuel =>
            exfalso
            have key : (∀ t : PN Nat V, Packrat.nameTree s t ≠ .fuel) := by
              have aux : ∀ k (t : PN Nat V), PN.depth t ≤ k → Packrat.nameTree s t ≠ .fuel := by
                intro k
                induction k with
                | zero => intro t; cases t; simp only [PN.depth]; omega
                | succ k ih =>
                  intro t hk
                  cases t with
                  | node l ks =>
                    simp only [Packrat.nameTree]
                    cases s.symb2str[l.kind]? with
                    | none => simp
                    | some x =>
                      simp only [PN.depth] at hk
                      have : ∀ ks : List (PN Nat V), PN.depths ks ≤ k → Packrat.nameTrees s ks ≠ .fuel := by
                        intro ks
                        induction ks with
                        | nil => intro _; simp [Packrat.nameTrees]
                        | cons t ts iht =>
                          intro hd
                          simp only [PN.depths] at hd
                          have h1 := ih t (by omega)
                          have h2 := iht (by omega)
                          simp only [Packrat.nameTrees]
                          cases h3 : Packrat.nameTree s t with
                          | fuel => exact absurd h3 h1
                          | panic => simp [Out.bind]
                          | ok t' =>
                            cases h4 : Packrat.nameTrees s ts with
                            | fuel => exact absurd h4 h2
                            | panic => simp [Out.bind]
                            | ok t' => simp [Out.bind]
                      have := this ks (by omega)
                      cases h3 : Packrat.nameTrees s ks with
                      | fuel => exact absurd h3 this
                      | panic => simp [Out.bind]
                      | ok t' => simp [Out.bind]
              exact fun t => aux _ t (Nat.le_refl _)
            exact key _ hn
          | ok t => exact ⟨s, h', a.node, L', _, _, r.tree, rfl, hF.1, hL, hn⟩

/-- C94: with nodes in memory the top-down parser makes the tree of the model on values, about which C14 to C17 speak. No node has a parent
link. A node that occurs more than once in the tree covers no lexeme. -/
theorem C94_tree (ev : V) (g : Grammar α) (hg : g.WF) (ls : List (Lexeme α V)) (n : Nat) :
    match Topdown.parse ev g ls n with
    | .ok none => parse ev g ls n = .ok none
    | .ok (some t) => ∃ s h a ti F A, parse ev g ls n = .ok (some (s, h, a)) ∧ Rep false h ti none a F A ∧ Packrat.nameTree s ti = .ok t ∧
        (∀ c ∈ h.cells, c.P = none) ∧
        ∀ x, 2 ≤ F.count x → ∃ u u' p F' A', (u = ti ∨ Below u ti) ∧ Rep false h u p x F' A' ∧ Packrat.nameTree s u = .ok u' ∧ width g u' = 0
    | .panic => False
    | .fuel => parse ev g ls n = .fuel := by
  have h1 := parse_sim ev g ls n
  have h2 := (Verif.Props.Topdown.parse_iff ev g hg ls).2.2 n
  match hq : Topdown.parse ev g ls n, h1, h2 with
  | .ok none, h1, _ => exact h1
  | .fuel, h1, _ => exact h1
  | .panic, _, h2 => exact h2 rfl
  | .ok (some t), ⟨s, h, a, L, i, j, ti, e, hl, hL, hn⟩, _ =>
    obtain ⟨F, A, hr, hA, hle, hf, hx⟩ := hl.rep a i j ti hL
    refine ⟨s, h, a, ti, F, A, e, hr, hn, ?_, ?_⟩
    · intro c hc
      obtain ⟨k, hk⟩ := List.mem_iff_getElem?.1 hc
      exact (hl.2.1 k c hk).1
    · intro x h2c
      have hxF : x ∈ F := List.count_pos_iff.1 (by omega)
      obtain ⟨_, i', j', t', q1, q2, q3, q4, q5⟩ := hx x hxF
      have := q5 h2c
      subst this
      obtain ⟨u, p', F', A', hu, hr'⟩ := rep_sub hr x hxF
      obtain ⟨F2, A2, hr2, _, _, hf2, _⟩ := hl.rep x i' i' t' q1
      have := Verif.Props.TreeHeap.rep_fun hr' hr2
      subst this
      obtain ⟨u', hu'⟩ : ∃ u', Packrat.nameTree s u = .ok u' := by
        rcases hu with rfl | hu
        · exact ⟨t, hn⟩
        · obtain ⟨u', h3, _⟩ := (name_width (g := g) hn).2 u hu
          exact ⟨u', h3⟩
      refine ⟨u, u', p', F', A', hu, hr', hu', ?_⟩
      rw [← (name_width (g := g) hu').1, hf2]
      omega

/-- C94: so if every node covers a lexeme, no node and no array occurs twice, and what C66 says of reductions in place holds. -/
theorem C94_owns (ev : V) (g : Grammar α) (ls : List (Lexeme α V)) {n t} (ht : Topdown.parse ev g ls n = .ok (some t))
    (hc : ∀ u, (u = t ∨ Below u t) → width g u ≠ 0) :
    ∃ s h a ti F A, parse ev g ls n = .ok (some (s, h, a)) ∧ Owns h a ti F A ∧ Packrat.nameTree s ti = .ok t := by
  have h1 := parse_sim ev g ls n
  rw [ht] at h1
  obtain ⟨s, h, a, L, i, j, ti, e, hl, hL, hn⟩ := h1
  obtain ⟨F, A, hr, hA, hle, hf, hx⟩ := hl.rep a i j ti hL
  have hF : F.Nodup := by
    rw [List.nodup_iff_count_le_one]
    intro x
    by_contra h2c
    have h2c : 2 ≤ F.count x := by omega
    have hxF : x ∈ F := List.count_pos_iff.1 (by omega)
    obtain ⟨_, i', j', t', q1, q2, q3, q4, q5⟩ := hx x hxF
    have := q5 h2c
    subst this
    obtain ⟨u, p', F', A', hu, hr'⟩ := rep_sub hr x hxF
    obtain ⟨F2, A2, hr2, _, _, hf2, _⟩ := hl.rep x i' i' t' q1
    have := Verif.Props.TreeHeap.rep_fun hr' hr2
    subst this
    obtain ⟨u', hu', hb⟩ : ∃ u', Packrat.nameTree s u = .ok u' ∧ (u' = t ∨ Below u' t) := by
      rcases hu with rfl | hu
      · exact ⟨t, hn, .inl rfl⟩
      · obtain ⟨u', h3, h4⟩ := (name_width (g := g) hn).2 u hu
        exact ⟨u', h3, .inr h4⟩
    refine hc u' hb ?_
    rw [← (name_width (g := g) hu').1, hf2]
    omega
  refine ⟨s, h, a, ti, F, A, e, ⟨hr, hF, ?_⟩, hn⟩
  rw [hA]
  refine List.Nodup.map_on ?_ hF
  intro x hxm y hym hxy
  have bx := hr.bound.1 x hxm
  have bY := hr.bound.1 y hym
  refine hl.2.2 x y _ _ (List.getElem?_eq_getElem bx) (List.getElem?_eq_getElem bY) ?_
  simpa [arrOf, List.getElem?_eq_getElem bx, List.getElem?_eq_getElem bY] using hxy

/-- C94: in particular where no nonterminal derives the empty word. -/
theorem C94_noempty (ev : V) (g : Grammar α) (hg : g.WF) (ls : List (Lexeme α V)) {n t} (ht : Topdown.parse ev g ls n = .ok (some t))
    (hn : ∀ A k, ¬ g.Rule A k []) :
    ∃ s h a ti F A, parse ev g ls n = .ok (some (s, h, a)) ∧ Owns h a ti F A ∧ Packrat.nameTree s ti = .ok t := by
  refine C94_owns ev g ls ht ?_
  have key : ∀ ss w, g.Derives ss w → w = [] → ss = [] := by
    intro ss w h
    induction h with
    | nil => intro _; rfl
    | term => intro h; cases h
    | nonterm hr _ _ ih _ =>
      intro h
      have := ih (List.append_eq_nil_iff.1 h).1
      subst this
      exact absurd hr (hn _ _)
  have hv := (Verif.Props.Topdown.C14_sound ev g hg ls ht).2.1
  have sub : ∀ u v : PN α V, Below u v → v.Valid g → u.Valid g := by
    intro u v hb
    induction hb with
    | child hk =>
      intro hv
      cases hv with
      | leaf => cases hk
      | inner _ _ hk' => exact hk' _ hk
    | deeper hk _ ih =>
      intro hv
      cases hv with
      | leaf => cases hk
      | inner _ _ hk' => exact ih (hk' _ hk)
  intro u hu hw
  have hvu : u.Valid g := by
    rcases hu with rfl | hu
    · exact hv
    · exact sub u t hu hv
  have := Grammar.Valid.derives hvu
  have h0 := List.length_eq_zero_iff.1 hw
  rw [h0] at this
  cases key _ _ this rfl

/-- C94: whenever Parse returns a node, the memory holds at most `1 + (n + 2) * Size g` nodes, where `n` is the number of lexemes, and as
many arrays: linear in the input for each grammar, while the tree can be exponential in the grammar (C92). -/
theorem C94_memory (ev : V) (g : Grammar α) (hg : g.WF) (ls : List (Lexeme α V)) {n s h a} (hp : parse ev g ls n = .ok (some (s, h, a))) :
    h.cells.length ≤ 1 + (ls.length + 2) * Verif.Props.TopdownCount.Size g ∧ h.arrs.length ≤ 1 + (ls.length + 2) * Verif.Props.TopdownCount.Size g := by
  have hsim := C94_tree ev g hg ls n
  rw [hp] at hsim
  obtain ⟨t, ht⟩ : ∃ t, Topdown.parse ev g ls n = .ok (some t) := by
    match hq : Topdown.parse ev g ls n, hsim with
    | .ok none, h => cases h
    | .ok (some t), _ => exact ⟨t, rfl⟩
    | .fuel, h => cases h
  have := Verif.Props.TopdownCount.C88_same ev g ls n
  rw [ht] at this
  obtain ⟨⟨r', c⟩, e, e'⟩ := Out.bind_eq_ok.1 this
  have hc := Verif.Props.TopdownCount.C88_linear ev g hg ls e
  cases e'
  unfold Topdown.parseC at e
  unfold parse at hp
  cases ho : g.order with
  | nil => rw [ho] at e; cases e
  | cons start rest =>
    rw [ho] at e hp
    simp only at e hp
    obtain ⟨s1, hs1, e⟩ := Out.bind_eq_ok.1 e
    obtain ⟨s2, hs2, hp⟩ := Out.bind_eq_ok.1 hp
    rw [hs1] at hs2
    cases hs2
    obtain ⟨⟨⟨m1, r1⟩, c1⟩, e1, e⟩ := Out.bind_eq_ok.1 e
    obtain ⟨h', hm', a', f, _, _, g1⟩ := accept_cost ev (Packrat.idxProds g s1) (ls.map fun l => ⟨Packrat.symIdx s1 l.kind, l.val, l.line, l.col⟩) n
      ⟨[], []⟩ (fun _ => none) (fun _ => none) (Packrat.symIdx s1 start) 0 true (fun _ => trivial) m1 r1 c1 e1
    simp only at f
    rw [f, Out.bind_ok] at hp
    have hcc : c1 = c := by
      cases r1 with
      | none => cases e
      | some a =>
        simp only at e
        obtain ⟨_, _, e⟩ := Out.bind_eq_ok.1 e
        cases e
        rfl
    subst hcc
    have hh : h' = h := by
      cases a' with
      | none => cases hp
      | some a' => cases hp; rfl
    subst hh
    have := g1.1; have := g1.2
    simp only [List.length_nil] at *
    exact ⟨by omega, by omega⟩

/-- `S → N N`, `N → M`, `M → ε`, with the numbers 0, 1, 2. -/
def gN : Grammar Nat where
  order := [0, 1, 2]
  prods := fun x => if x = 0 then some [[1, 1]] else if x = 1 then some [[2]] else if x = 2 then some [[]] else none

theorem gN_wf : gN.WF := by
  intro x
  simp only [gN]
  match x with
  | 0 => simp
  | 1 => simp
  | 2 => simp
  | x + 3 => simp

/-- What the memory holds after reading nothing with it: the node of `M`, the node of `N` and the node of `S`, whose two children are the
same node. -/
def hN : Heap Nat Nat := ⟨[⟨⟨2, 0, -1, 0⟩, none, ⟨2, 0⟩⟩, ⟨⟨1, 0, -1, 0⟩, none, ⟨1, 1⟩⟩, ⟨⟨0, 0, -1, 0⟩, none, ⟨0, 2⟩⟩], [[some 1, some 1], [some 0], []]⟩

theorem gN_said : ∃ s, parse 0 gN [] 9 = .ok (some (s, hN, 2)) := ⟨_, rfl⟩

/-- C94: in general a node can occur twice, so that nothing is known of reductions in place. -/
theorem C94_owns_refuted : ¬ ∀ (g : Grammar Nat) (ls : List (Lexeme Nat Nat)) n s h a, g.WF → parse 0 g ls n = .ok (some (s, h, a)) →
    ∃ t F A, Owns h a t F A := by
  intro hall
  obtain ⟨s, hs⟩ := gN_said
  obtain ⟨t, F, A, hr, hF, _⟩ := hall gN [] 9 s hN 2 gN_wf hs
  cases t with
  | node l ks =>
    obtain ⟨c, ar, F', A', h1, h2, h3, h4, h5, h6, rfl, rfl⟩ := hr
    cases h1
    cases h4
    have hk : Reps false hN ks 2 [some 1, some 1] F' A' := h6
    have head : ∀ {t : PN Nat Nat} {p a F A}, Rep false hN t p a F A → a ∈ F := by
      intro t p a F A hr
      cases t with
      | node l ks =>
        obtain ⟨_, _, _, _, _, _, _, _, _, _, rfl, _⟩ := hr
        simp
    match ks, hk with
    | [], hk => cases hk.1
    | [k], ⟨a, os, F1, A1, F2, A2, e, _, h, _⟩ => cases e; cases h.1
    | [k, k'], ⟨a, os, F1, A1, F2, A2, e, g1, ⟨a', os', F3, A3, F4, A4, e', g2, _, e3, _⟩, e2, _⟩ =>
      cases e
      cases e'
      subst e2 e3
      rw [List.nodup_cons, List.nodup_append] at hF
      exact hF.2.2.2 _ (head g1) _ (List.mem_append_left _ (head g2)) rfl
    | _ :: _ :: k :: ks, ⟨a, os, F1, A1, F2, A2, e, _, ⟨a', os', F3, A3, F4, A4, e', _, ⟨_, _, _, _, _, _, e4, _⟩, _⟩, _⟩ =>
      cases e
      cases e'
      cases e4

/-- C94: and there removing the child of the first child removes the one of the second child as well. -/
theorem C94_shared_said (grow : Nat → Nat → Nat) : ∃ F A h' F' A',
    Rep false hN (.node ⟨0, 0, -1, 0⟩ [.node ⟨1, 0, -1, 0⟩ [.node ⟨2, 0, -1, 0⟩ []], .node ⟨1, 0, -1, 0⟩ [.node ⟨2, 0, -1, 0⟩ []]]) none 2 F A ∧
    child hN 2 0 = .ok (some 1) ∧ removeChild grow hN 1 0 = .ok (h', true) ∧
    Rep false h' (.node ⟨0, 0, -1, 0⟩ [.node ⟨1, 0, -1, 0⟩ [], .node ⟨1, 0, -1, 0⟩ []]) none 2 F' A' := by
  let hN' : Heap Nat Nat := ⟨[⟨⟨2, 0, -1, 0⟩, none, ⟨2, 0⟩⟩, ⟨⟨1, 0, -1, 0⟩, none, ⟨1, 0⟩⟩, ⟨⟨0, 0, -1, 0⟩, none, ⟨0, 2⟩⟩], [[some 1, some 1], [some 0], []]⟩
  have hM : Rep false hN (.node ⟨2, 0, -1, 0⟩ []) (some 1) 0 [0] [2] :=
    ⟨_, _, [], [], rfl, rfl, by simp, rfl, Nat.le_refl _, ⟨rfl, rfl, rfl⟩, rfl, rfl⟩
  have hN1 : Rep false hN (.node ⟨1, 0, -1, 0⟩ [.node ⟨2, 0, -1, 0⟩ []]) (some 2) 1 [1, 0] [1, 2] :=
    ⟨_, _, [0], [2], rfl, rfl, by simp, rfl, Nat.le_refl _, ⟨0, [], _, _, _, _, rfl, hM, ⟨rfl, rfl, rfl⟩, rfl, rfl⟩, rfl, rfl⟩
  refine ⟨[2, 1, 0, 1, 0], [0, 1, 2, 1, 2], hN', [2, 1, 1], [0, 1, 1], ?_, rfl, rfl, ?_⟩
  · exact ⟨_, _, [1, 0, 1, 0], [1, 2, 1, 2], rfl, rfl, by simp, rfl, Nat.le_refl _,
      ⟨1, [some 1], _, _, _, _, rfl, hN1, ⟨1, [], _, _, _, _, rfl, hN1, ⟨rfl, rfl, rfl⟩, rfl, rfl⟩, rfl, rfl⟩, rfl, rfl⟩
  · have h1 : Rep false hN' (.node ⟨1, 0, -1, 0⟩ []) (some 2) 1 [1] [1] :=
      ⟨_, _, [], [], rfl, rfl, by simp, rfl, Nat.zero_le _, ⟨rfl, rfl, rfl⟩, rfl, rfl⟩
    exact ⟨_, _, [1, 1], [1, 1], rfl, rfl, by simp, rfl, Nat.le_refl _,
      ⟨1, [some 1], _, _, _, _, rfl, h1, ⟨1, [], _, _, _, _, rfl, h1, ⟨rfl, rfl, rfl⟩, rfl, rfl⟩, rfl, rfl⟩, rfl, rfl⟩

/-- `S → a S | a`: S = 0, a = 1. -/
def gP : Grammar Nat where
  order := [0]
  prods := fun x => if x = 0 then some [[1, 0], [1]] else none

/-- The hypotheses of C94_noempty are met: a tree is returned and no production is empty. -/
example : gP.WF ∧ (∀ A k, ¬ gP.Rule A k []) ∧ (∃ t, Topdown.parse 0 gP [⟨1, 7, 0, 0⟩, ⟨1, 8, 0, 0⟩] 9 = .ok (some t)) := by
  refine ⟨?_, ?_, ⟨_, rfl⟩⟩
  · intro x
    simp only [gP]
    cases x <;> simp
  · rintro A k ⟨ps, h1, h2⟩
    simp only [gP] at h1
    cases A with
    | succ A => simp at h1
    | zero =>
      cases h1
      match k with
      | 0 => simp at h2
      | 1 => simp at h2
      | k + 2 => simp at h2

end Verif.Props.TopdownHeap
