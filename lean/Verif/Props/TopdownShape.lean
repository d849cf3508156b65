import Verif.Props.Topdown
import Verif.Props.PackratShape
/-
The shape of the trees that the top-down parser returns (C92).
-/
namespace Verif.Props.TopdownShape
open Verif.Spec Verif.Spec.Grammar Verif.Spec.PN Verif.Topdown Verif.Props.PackratShape Verif.Props.Topdown

variable {α V : Type} {g : Grammar α} {ev : V} {inp : List (Lexeme α V)}

/-- `u` is what matching its kind at `i` gives. -/
def Got (g : Grammar α) (ev : V) (inp : List (Lexeme α V)) (i j : Nat) (u : PN α V) : Prop :=
  ∃ i' j', i ≤ i' ∧ j' ≤ j ∧ Match g ev inp (.sym u.kind) i' (some (j', [u]))

theorem Got.mono {i j i1 j1 : Nat} {u : PN α V} (h : Got g ev inp i j u) (hi : i1 ≤ i) (hj : j ≤ j1) : Got g ev inp i1 j1 u := by
  obtain ⟨a, b, h1, h2, h3⟩ := h
  exact ⟨a, b, by omega, by omega, h3⟩

theorem not_below_leaf {l : Lexeme α V} {u : PN α V} (h : Below u (.node l [])) : False := by
  cases h with
  | child h => cases h
  | deeper h _ => cases h

theorem got {goal i r} (h : Match g ev inp goal i r) : ∀ j ts, r = some (j, ts) → ∀ t ∈ ts,
    (∀ u, Below u t → Got g ev inp i j u) ∧ ((∀ A ps, goal ≠ .alts A ps) → Got g ev inp i j t) := by
  induction h with
  | @term_ok t l i h1 h2 h3 =>
    rintro j ts e t ht
    cases e
    rw [List.mem_singleton] at ht
    subst ht
    refine ⟨fun u hu => (not_below_leaf hu).elim, fun _ => ⟨i, i + 1, Nat.le_refl _, Nat.le_refl _, ?_⟩⟩
    subst h3
    exact .term_ok h1 h2 rfl
  | term_no _ _ => rintro j ts e; cases e
  | @nonterm A ps i r h1 h2 ih =>
    rintro j ts rfl t ht
    refine ⟨(ih j ts rfl t ht).1, fun _ => ⟨i, j, Nat.le_refl _, Nat.le_refl _, ?_⟩⟩
    have : ts = [t] ∧ t.kind = A := by
      clear ih h1
      generalize hg : Goal.alts A ps = goal at h2
      generalize hr : some (j, ts) = r at h2
      induction h2 generalizing ps with
      | alts_ok _ =>
        cases hg
        cases hr
        rw [List.mem_singleton] at ht
        subst ht
        exact ⟨rfl, rfl⟩
      | alts_no _ _ _ ih => cases hg; exact ih rfl hr
      | alts_nil => cases hr
      | _ => cases hg
    rw [this.2, ← this.1]
    exact .nonterm h1 h2
  | alts_nil => rintro j ts e; cases e
  | @alts_ok A p ps i j ks h1 ih =>
    rintro j' ts e t ht
    cases e
    rw [List.mem_singleton] at ht
    subst ht
    refine ⟨fun u hu => ?_, fun h => absurd rfl (h _ _)⟩
    cases hu with
    | child h => exact (ih _ _ rfl u h).2 (by simp)
    | deeper h h' => exact (ih _ _ rfl _ h).1 u h'
  | alts_no _ _ _ ih =>
    rintro j ts e t ht
    exact ⟨(ih j ts e t ht).1, fun h => absurd rfl (h _ _)⟩
  | seq_nil => rintro j ts e t ht; cases e; cases ht
  | seq_no _ _ => rintro j ts e; cases e
  | seq_rest_no _ _ _ _ => rintro j ts e; cases e
  | @seq_cons X ss i m ts j ts' h1 h2 ih1 ih2 =>
    rintro j' us e t ht
    cases e
    have l1 := Match.le h1 _ _ rfl
    have l2 := Match.le h2 _ _ rfl
    rcases List.mem_append.1 ht with ht | ht
    · obtain ⟨a, b⟩ := ih1 _ _ rfl t ht
      exact ⟨fun u hu => (a u hu).mono (Nat.le_refl _) l2, fun _ => (b (by simp)).mono (Nat.le_refl _) l2⟩
    · obtain ⟨a, b⟩ := ih2 _ _ rfl t ht
      exact ⟨fun u hu => (a u hu).mono l1 (Nat.le_refl _), fun _ => (b (by simp)).mono l1 (Nat.le_refl _)⟩

theorem nodes_below {u t : PN α V} (h : Below u t) : nodes u < nodes t := by
  have kid : ∀ {c t : PN α V}, c ∈ t.kids → nodes c < nodes t := by
    rintro c ⟨l, ks⟩ hc
    have hc : c ∈ ks := hc
    have : nodes c ≤ nodess ks := by
      induction ks with
      | nil => cases hc
      | cons t ts ih =>
        rw [nodess]
        rcases List.mem_cons.1 hc with rfl | hc
        · omega
        · have := ih hc hc
          omega
    rw [nodes]
    omega
  induction h with
  | child h => exact kid h
  | deeper h _ ih => have := kid h; omega

theorem width_match {X : α} {i j : Nat} {u : PN α V} (h : Match g ev inp (.sym X) i (some (j, [u]))) (hj : j ≤ inp.length) :
    i + width g u = j := by
  obtain ⟨_, _, h3, h4⟩ := Match.good h _ _ rfl
  have : width g u = (slice inp i j).length := by
    rw [← h3]
    simp [width, fringes]
  rw [this]
  unfold slice
  simp
  omega

/-- A node from a match does not stand above one of the same kind and width. -/
theorem no_above {X : α} {i j : Nat} {u v : PN α V} (h : Match g ev inp (.sym X) i (some (j, [u]))) (hX : u.kind = X) (hj : j ≤ inp.length)
    (hv : Below v u) (hk : v.kind = u.kind) : width g v ≠ width g u := by
  intro hw
  obtain ⟨i', j', h1, h2, h3⟩ := (got h _ _ rfl u (by simp)).1 v hv
  have e1 := width_match h hj
  have e2 := width_match h3 (by omega)
  have : i' = i := by omega
  subst this
  rw [hk, hX] at h3
  have := Match.det h3 _ h
  simp only [Option.some.injEq, Prod.mk.injEq, List.cons.injEq, and_true] at this
  have := nodes_below hv
  rw [‹j' = j ∧ v = u›.2] at this
  omega

/-- The first production that matches is the one that the start symbol takes, if it matches everything. -/
theorem whole_first {S : α} {ps : List (List α)} {t v : PN α V} (h : Whole g ev inp S ps (some t))
    (hv : Match g ev inp (.alts S ps) 0 (some (inp.length, [v]))) : t = v := by
  generalize hr : some t = r at h
  induction h with
  | nil => cases hr
  | hit h =>
    cases hr
    cases hv with
    | alts_ok h' =>
      have := Match.det h _ h'
      simp only [Option.some.injEq, Prod.mk.injEq, true_and] at this
      rw [this]
    | alts_no h' _ => cases Match.det h _ h'
  | miss h hn _ ih =>
    cases hv with
    | alts_ok h' => exact absurd (Match.det h _ h') (hn _)
    | alts_no _ h' => exact ih h' hr

variable [DecidableEq α]

/-- C92: no node of a tree that the top-down parser returns stands below a node of the same kind that covers the same part of the input. -/
theorem C92_no_repeat (ev : V) (g : Grammar α) (hg : g.WF) (ls : List (Lexeme α V)) {n t} (h : parse ev g ls n = .ok (some t)) :
    t.NoRepeat g := by
  have hp := C14_sound ev g hg ls h
  have h := (parse_iff ev g hg ls).1 n _ h
  unfold OrderedChoice at h
  split at h
  · cases h
  · rename_i S hS
    obtain ⟨ps, hps, h⟩ := h
    have hwt : width g t = ls.length := by unfold width; rw [hp.2.2]
    have hkt : t.kind = S := by have := hp.1; rw [hS] at this; exact (Option.some.inj this).symm
    -- everything below the root comes from a match
    have hgot : ∀ u, Below u t → Got g ev ls 0 ls.length u := by
      have : ∀ ps, Whole g ev ls S ps (some t) → ∀ u, Below u t → Got g ev ls 0 ls.length u := by
        intro ps hw
        generalize hr : some t = r at hw
        induction hw with
        | nil => cases hr
        | hit hm =>
          cases hr
          intro u hu
          cases hu with
          | child hc => exact (got hm _ _ rfl u hc).2 (by simp)
          | deeper hc hu => exact (got hm _ _ rfl _ hc).1 u hu
        | miss _ _ _ ih => exact ih hr
      exact this ps h
    rintro u v (rfl | hu) hv hk
    · -- the root
      intro hw
      obtain ⟨i, j, _, h2, h3⟩ := hgot v hv
      have e := width_match h3 h2
      have hi : i = 0 := by omega
      have hj : j = ls.length := by omega
      subst hi hj
      rw [hk, hkt] at h3
      generalize hr : some (ls.length, [v]) = r at h3
      cases h3 with
      | term_no hT _ => cases hr
      | term_ok hT _ _ => rw [show g.prods S = none from hT] at hps; cases hps
      | nonterm hq hm =>
        rw [hps] at hq
        cases hq
        rw [← hr] at hm
        have := whole_first h hm
        have hlt := nodes_below hv
        rw [this] at hlt
        omega
    · obtain ⟨i, j, _, h2, h3⟩ := hgot u hu
      exact no_above h3 rfl h2 hv hk

/-- C92: on `n` lexemes such a tree is at most `|G| (n + 1)` deep, where `|G|` is the number of nonterminals. -/
theorem C92_depth (ev : V) (g : Grammar α) (hg : g.WF) (ls : List (Lexeme α V)) {n t} (h : parse ev g ls n = .ok (some t)) :
    depth t ≤ g.order.length * (ls.length + 1) := by
  obtain ⟨hS, hv, hf⟩ := C14_sound ev g hg ls h
  exact depth_bound hg hS hv hf (C92_no_repeat ev g hg ls h)

/-- `S → b | S a`, left recursive: S = 0, a = 1, b = 2. The start symbol looks for a production that matches everything, the `S` below it
takes the first production that matches, so that the parse ends. -/
def gL : Grammar Nat := Verif.Props.Packrat.table [(0, [[2], [0, 1]])]

open Verif.Props.Packrat in
-- C92 where a node stands below one of the same kind that starts at the same place
example : ∃ t, Out.Returns (parse 0 gL (lexs [2, 1])) (some t) ∧ t.NoRepeat gL ∧ depth t ≤ 3 := by
  have h : Out.Returns (parse 0 gL (lexs [2, 1])) (some (.node ⟨0, 0, -1, 0⟩ [.node ⟨0, 0, -1, 0⟩ [.node ⟨2, 100, 1, 0⟩ []], .node ⟨1, 101, 1, 1⟩ []])) := by
    refine (C15_ordered_choice 0 gL (table_wf _) _ _).2 ⟨_, rfl, ?_⟩
    have b : Match gL 0 (lexs [2, 1]) (.seq [2]) 0 (some (1, [.node ⟨2, 100, 1, 0⟩ []])) :=
      .seq_cons (ts := [_]) (.term_ok (by decide) rfl rfl) .seq_nil
    refine .miss b (by simp [lexs]) (.hit (.seq_cons (ts := [_]) (.nonterm rfl (.alts_ok b)) ?_))
    exact .seq_cons (ts := [_]) (.term_ok (by decide) rfl rfl) .seq_nil
  obtain ⟨N, hN⟩ := h
  have h' := hN N (Nat.le_refl _)
  exact ⟨_, ⟨N, hN⟩, C92_no_repeat 0 gL (table_wf _) _ h', C92_depth 0 gL (table_wf _) _ h'⟩

/-- The tree for no lexemes from `m - d` on. -/
theorem gd_match (m : Nat) : ∀ d, d ≤ m → ∃ t, Match (gd m) 0 ([] : List (Lexeme Nat Nat)) (.sym (m - d)) 0 (some (0, [t])) := by
  intro d
  induction d with
  | zero =>
    intro _
    exact ⟨_, .nonterm (ps := [[]]) (by simp [gd]) (.alts_ok .seq_nil)⟩
  | succ d ih =>
    intro hd
    obtain ⟨t, ht⟩ := ih (by omega)
    refine ⟨_, .nonterm (ps := [[m - d, m - d]]) ?_ (.alts_ok (.seq_cons ht (.seq_cons ht .seq_nil)))⟩
    simp only [gd]
    rw [if_pos (by omega)]
    simp
    omega

/-- C92: the number of nodes is not bounded like that: without any lexeme it can be exponential in the number of nonterminals, with one
production of at most two symbols for each. -/
theorem C92_nodes (m : Nat) : (gd m).order.length = m + 1 ∧ ∃ t, Out.Returns (parse 0 (gd m) ([] : List (Lexeme Nat Nat))) (some t) ∧
    nodes t + 1 = 2 ^ (m + 1) := by
  refine ⟨by simp [gd], ?_⟩
  obtain ⟨t, ht⟩ := gd_match m m (Nat.le_refl _)
  rw [Nat.sub_self] at ht
  have ho : (gd m).order.head? = some 0 := by simp [gd, List.range_succ_eq_map]
  have : ∃ t, OrderedChoice (gd m) 0 ([] : List (Lexeme Nat Nat)) (some t) := by
    unfold OrderedChoice
    rw [ho]
    simp only
    generalize hr : some (0, [t]) = r at ht
    cases ht with
    | nonterm h1 h2 =>
      rename_i ps
      have : ps.length = 1 := by
        simp only [gd] at h1
        by_cases h : 0 < m
        · rw [if_pos h] at h1; cases h1; rfl
        · rw [if_neg h, if_pos (by omega)] at h1; cases h1; rfl
      match ps, this with
      | [p], _ =>
        cases h2 with
        | alts_ok h =>
          cases hr
          exact ⟨_, _, h1, .hit h⟩
        | alts_no _ h =>
          cases h
          cases hr
    | _ => first | cases hr | (rename_i h _ _; simp at h)
  obtain ⟨t, ht⟩ := this
  have hr := (parse_iff 0 (gd m) (gd_wf m) []).2.1 _ ht
  refine ⟨t, hr, ?_⟩
  obtain ⟨N, hN⟩ := hr
  obtain ⟨hS, hv, _⟩ := C14_sound 0 (gd m) (gd_wf m) [] (hN N (Nat.le_refl _))
  rw [ho] at hS
  exact gd_nodes hv m (by have := Option.some.inj hS; omega)

end Verif.Props.TopdownShape
