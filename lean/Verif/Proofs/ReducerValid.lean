import Verif.Proofs.ReducerRead
/-
Reading reducer definitions: every derivation tree of their grammar reduces to a tree that spells rules, and
its leaves are these rules written.
-/
namespace Verif.ReducerDSL
open Verif Verif.Spec Verif.RegexGram Verif.Tree Verif.Json
open Verif.Props.ReducerDSL

section
variable {R : Nat → Reducer Unit Str Str} {G : Spec.Grammar Str} {t : PN Str Str}

theorem term_of (hG : DG G) {A : Str} (h : A ∉ rdAdds.map (·.1)) : G.Term A :=
  hG.term.2 fun p hp => h (List.mem_map.2 ⟨_, hp, rfl⟩)

/-- Leaves. -/
theorem Reads.is (h : Reads R G t) (hG : DG G) (x : RdTok) {A : Str} (hx : t.kind = A) (hn : A ∉ rdAdds.map (·.1))
    (hv : ∀ s, x.val = some s → t.lx.val = s) (hA : x.kind = A := by rfl) : RdSpells [x] (Json.fr G t) := by
  rw [(h.tok (hx ▸ term_of hG hn)).2.2]
  exact .cons ⟨hx.trans hA.symm, hv⟩ .nil

theorem rdSpells_cons {x : RdTok} {w : List RdTok} {a b : List (Lexeme Str Str)} (h : RdSpells [x] a) (h' : RdSpells w b) :
    RdSpells (x :: w) (a ++ b) := rdSpells_append h h'

theorem Reads.keep (h : Reads R G t) (hG : DG G) {A : Str} (hx : t.kind = A) (hn : A ∉ rdAdds.map (·.1)) : Reds R t t ∧ t.kids = [] :=
  ⟨(h.tok (hx ▸ term_of hG hn)).1, (h.tok (hx ▸ term_of hG hn)).2.1⟩
end

section
variable {b : Str → Option (List Str)} {o1 o2 : List Str} {G : Spec.Grammar Str}

theorem reads_leaf (hb : DB b) (ho : Orders o1 o2) (hG : DG G) {l : Lexeme Str Str} (h : G.Term l.kind)
    (hs : l.kind = "string".toList → ∃ k, l.val = '"' :: k ++ ['"']) : Reads (fun n => rdcr n b o1 o2) G (.node l []) := by
  have no : ∀ {A}, A ∈ rdAdds.map (·.1) → l.kind ≠ A := by
    rintro A hm rfl
    obtain ⟨r, hr, e⟩ := List.mem_map.1 hm
    exact hG.term.1 h r.2 (e ▸ hr)
  constructor
  case tok =>
    intro _
    refine ⟨Reds.node .nil (acts_keep hb ho ?_ ?_), rfl, ?_⟩
    · intro hm
      have : ∀ k ∈ tableNames, k ∈ rdAdds.map (·.1) := by decide +kernel
      exact no (this _ hm) rfl
    · intro hm
      have : ∀ k ∈ rdHelps.map (·.1), k ∈ rdAdds.map (·.1) := by decide +kernel
      exact no (this _ hm) rfl
    · show PN.fringe _ _ = _
      rw [PN.fringe, if_pos (by rw [show G.prods l.kind = none from h]; rfl)]
      rfl
  case str => exact hs
  all_goals
    intro hk
    exact absurd hk (no (by decide +kernel))

theorem kind_keep {a : PN Str Str} {ks : List (PN Str Str)} {A : Str} {S : List Str} (ha : a.kind = A) (h : A ∉ S) :
    (PN.node a.lx ks).kind ∉ S := by
  cases a; subst ha; exact h

/-- Reductions: what the first child is, and the rest. -/
theorem red_spells {a : PN Str Str} {l : Lexeme Str Str} {ks : List (PN Str Str)} (hb : DB b) (ho : Orders o1 o2)
    (hk : l.kind = "Reduction".toList) {A : Str} (ha : a.kind = A) (hk0 : a.kids = [])
    (hA : A ∉ ["comma".toList, "lp".toList, "rp".toList]) (hks : ∀ k ∈ ks, k.kind ∉ ["comma".toList, "lp".toList, "rp".toList]) :
    Acts (fun n => rdcr n b o1 o2) (.node l (a :: ks)) (.node a.lx ks) := by
  have := acts_first hb ho (ks := ks) (.inl hk) (ha ▸ hA)
  rw [hk0, List.filter_eq_self.2 (by intro k h; simpa using hks k h)] at this
  exact this

theorem reads_inner (hb : DB b) (ho : Orders o1 o2) (hG : DG G) {l : Lexeme Str Str} {ks : List (PN Str Str)}
    (hm : (l.kind, ks.map PN.kind) ∈ rdAdds) (ih : ∀ k ∈ ks, Reads (fun n => rdcr n b o1 o2) G k) :
    Reads (fun n => rdcr n b o1 o2) G (.node l ks) := by
  have hnt : ¬ G.Term l.kind := fun h => hG.term.1 h _ hm
  have hfr : Json.fr G (.node l ks) = PN.fringes (fun s => (G.prods s).isNone) ks := fr_node hnt
  have use : ∀ {A qs}, (PN.node l ks).kind = A → rowsOf A = qs → l.kind = A ∧ ks.map PN.kind ∈ qs := by
    rintro A qs rfl rfl
    exact ⟨rfl, mem_rowsOf.2 hm⟩
  constructor
  case tok => intro h; exact absurd h hnt
  case str =>
    intro h
    obtain ⟨-, h⟩ := use (qs := []) h (by decide +kernel)
    cases h
  case noArgs =>
    intro h
    obtain ⟨hl, h⟩ := use (qs := [["lp".toList, "rp".toList]]) h (by decide +kernel)
    obtain ⟨x, y, rfl, hx, hy⟩ := kids2 (List.mem_singleton.1 h)
    have ix := ih x (by simp); have iy := ih y (by simp)
    refine ⟨.node l [x, y], Reds.node (.cons (ix.keep hG hx (by decide +kernel)).1 (.cons (iy.keep hG hy (by decide +kernel)).1 .nil))
      (acts_keep hb ho (by rw [hl]; decide +kernel) (by rw [hl]; decide +kernel)), hl, ?_⟩
    rw [hfr, frs_cons, frs_cons, PN.fringes]
    exact rdSpells_cons (ix.is hG .lp hx (by decide +kernel) (by intro s h; cases h))
      (rdSpells_cons (iy.is hG .rp hy (by decide +kernel) (by intro s h; cases h)) .nil)
  case one =>
    intro h
    obtain ⟨hl, h⟩ := use (qs := [["lp".toList, "number".toList, "rp".toList]]) h (by decide +kernel)
    obtain ⟨x, c, y, rfl, hx, hc, hy⟩ := kids3 (List.mem_singleton.1 h)
    have ix := ih x (by simp); have iy := ih y (by simp); have ic := ih c (by simp)
    refine ⟨.node l [c], c, Reds.node (.cons (ix.keep hG hx (by decide +kernel)).1 (.cons (ic.keep hG hc (by decide +kernel)).1
      (.cons (iy.keep hG hy (by decide +kernel)).1 .nil))) (acts_one hb ho hl), hl, rfl, ?_⟩
    rw [hfr, frs_cons, frs_cons, frs_cons, PN.fringes]
    exact rdSpells_cons (ix.is hG .lp hx (by decide +kernel) (by intro s h; cases h))
      (rdSpells_cons (ic.is hG (.number c.lx.val) hc (by decide +kernel) (by intro s h; cases h; rfl))
      (rdSpells_cons (iy.is hG .rp hy (by decide +kernel) (by intro s h; cases h)) .nil))
  case nums =>
    intro h
    obtain ⟨hl, h⟩ := use (qs := [["number".toList, "comma".toList, "(number_comma)*".toList], []]) h (by decide +kernel)
    simp only [List.mem_cons, List.not_mem_nil, or_false] at h
    rcases h with h | h
    · obtain ⟨c, y, z, rfl, hc, hy, hz⟩ := kids3 h
      have ic := ih c (by simp); have iy := ih y (by simp); have iz := ih z (by simp)
      obtain ⟨z', h1, h2⟩ := iz.nums hz
      refine ⟨.node l [c, y, z'], Reds.node (.cons (ic.keep hG hc (by decide +kernel)).1 (.cons (iy.keep hG hy (by decide +kernel)).1
        (.cons h1 .nil))) (acts_keep hb ho (by rw [hl]; decide +kernel) (by rw [hl]; decide +kernel)), ?_⟩
      rw [flats_self (by rw [hl]; decide +kernel), flats_keep (by rw [hc]; decide +kernel), flats_keep (by rw [hy]; decide +kernel),
        noComma, List.filter_cons_of_pos (by rw [hc]; decide +kernel), List.filter_cons_of_neg (by rw [hy]; decide +kernel), List.flatMap_cons]
      rw [hfr, frs_cons, frs_cons, frs_cons, PN.fringes, List.append_nil]
      exact rdSpells_cons (ic.is hG (.number c.lx.val) hc (by decide +kernel) (by intro s h; cases h; rfl))
        (rdSpells_cons (iy.is hG .comma hy (by decide +kernel) (by intro s h; cases h)) h2)
    · have := kids_nil h
      subst this
      refine ⟨.node l [], Reds.node .nil (acts_keep hb ho (by rw [hl]; decide +kernel) (by rw [hl]; decide +kernel)), ?_⟩
      rw [flats_self (by rw [hl]; decide +kernel), hfr]
      exact .nil
  case strs =>
    intro h
    obtain ⟨hl, h⟩ := use (qs := [["string".toList, "comma".toList, "(string_comma)*".toList], []]) h (by decide +kernel)
    simp only [List.mem_cons, List.not_mem_nil, or_false] at h
    rcases h with h | h
    · obtain ⟨c, y, z, rfl, hc, hy, hz⟩ := kids3 h
      have ic := ih c (by simp); have iy := ih y (by simp); have iz := ih z (by simp)
      obtain ⟨z', ks, h1, h2, h3⟩ := iz.strs hz
      obtain ⟨k, hk⟩ := ic.str hc
      refine ⟨.node l [c, y, z'], k :: ks, Reds.node (.cons (ic.keep hG hc (by decide +kernel)).1 (.cons (iy.keep hG hy (by decide +kernel)).1
        (.cons h1 .nil))) (acts_keep hb ho (by rw [hl]; decide +kernel) (by rw [hl]; decide +kernel)), ?_, ?_⟩
      · rw [flats_self (by rw [hl]; decide +kernel), flats_keep (by rw [hc]; decide +kernel), flats_keep (by rw [hy]; decide +kernel),
          noComma, List.filter_cons_of_pos (by rw [hc]; decide +kernel), List.filter_cons_of_neg (by rw [hy]; decide +kernel)]
        exact .cons hk h2
      · rw [hfr, frs_cons, frs_cons, frs_cons, PN.fringes, List.append_nil, List.flatMap_cons]
        exact rdSpells_cons (ic.is hG (inQuotes k) hc (by decide +kernel) (by intro s h; cases h; exact hk))
          (rdSpells_cons (iy.is hG .comma hy (by decide +kernel) (by intro s h; cases h)) h3)
    · have := kids_nil h
      subst this
      refine ⟨.node l [], [], Reds.node .nil (acts_keep hb ho (by rw [hl]; decide +kernel) (by rw [hl]; decide +kernel)), ?_, ?_⟩
      · rw [flats_self (by rw [hl]; decide +kernel)]
        exact .nil
      · rw [hfr]; exact .nil
  case varNum =>
    intro h
    obtain ⟨hl, h⟩ := use (qs := [["lp".toList, "(number_comma)*".toList, "number".toList, "rp".toList]]) h (by decide +kernel)
    obtain ⟨x, z, c, y, rfl, hx, hz, hc, hy⟩ := kids4 (List.mem_singleton.1 h)
    have ix := ih x (by simp); have iz := ih z (by simp); have ic := ih c (by simp); have iy := ih y (by simp)
    obtain ⟨z', h1, h2⟩ := iz.nums hz
    have ha := acts_args hb ho (ks := [z', c]) hl (.inl ⟨rfl, rfl⟩) hx hy
    have e : (flats ["(number_comma)*".toList] [z', c]).filter (fun c => c.kind ∉ ["comma".toList]) =
        noComma (flats ["(number_comma)*".toList] [z']) ++ [c] := by
      rw [show [z', c] = [z'] ++ [c] from rfl, flats_append, flats_keep (t := c) (by rw [hc]; decide +kernel), flats, List.filter_append,
        List.filter_cons_of_pos (by rw [hc]; decide +kernel)]
      rfl
    rw [e] at ha
    refine ⟨_, Reds.node (.cons (ix.keep hG hx (by decide +kernel)).1 (.cons h1 (.cons (ic.keep hG hc (by decide +kernel)).1
      (.cons (iy.keep hG hy (by decide +kernel)).1 .nil)))) ha, hl, by simp [PN.kids], ?_⟩
    rw [hfr, frs_cons, frs_cons, frs_cons, frs_cons, PN.fringes, PN.kids, List.map_append, List.map_singleton, commas_snoc]
    refine rdSpells_cons (ix.is hG .lp hx (by decide +kernel) (by intro s h; cases h)) ?_
    rw [List.append_assoc, List.flatMap_map]
    exact rdSpells_append h2 (rdSpells_cons (ic.is hG (.number c.lx.val) hc (by decide +kernel) (by intro s h; cases h; rfl))
      (rdSpells_cons (iy.is hG .rp hy (by decide +kernel) (by intro s h; cases h)) .nil))
  case varStr =>
    intro h
    obtain ⟨hl, h⟩ := use (qs := [["lp".toList, "(string_comma)*".toList, "string".toList, "rp".toList]]) h (by decide +kernel)
    obtain ⟨x, z, c, y, rfl, hx, hz, hc, hy⟩ := kids4 (List.mem_singleton.1 h)
    have ix := ih x (by simp); have iz := ih z (by simp); have ic := ih c (by simp); have iy := ih y (by simp)
    obtain ⟨z', ks, h1, h2, h3⟩ := iz.strs hz
    obtain ⟨k, hk⟩ := ic.str hc
    have ha := acts_args hb ho (ks := [z', c]) hl (.inr ⟨rfl, rfl⟩) hx hy
    have e : (flats ["(string_comma)*".toList] [z', c]).filter (fun c => c.kind ∉ ["comma".toList]) =
        noComma (flats ["(string_comma)*".toList] [z']) ++ [c] := by
      rw [show [z', c] = [z'] ++ [c] from rfl, flats_append, flats_keep (t := c) (by rw [hc]; decide +kernel), flats, List.filter_append,
        List.filter_cons_of_pos (by rw [hc]; decide +kernel)]
      rfl
    rw [e] at ha
    refine ⟨_, ks ++ [k], Reds.node (.cons (ix.keep hG hx (by decide +kernel)).1 (.cons h1 (.cons (ic.keep hG hc (by decide +kernel)).1
      (.cons (iy.keep hG hy (by decide +kernel)).1 .nil)))) ha, hl, by simp, ?_, ?_⟩
    · exact List.rel_append h2 (.cons hk .nil)
    rw [hfr, frs_cons, frs_cons, frs_cons, frs_cons, PN.fringes, List.map_append, List.map_singleton, commas_snoc]
    refine rdSpells_cons (ix.is hG .lp hx (by decide +kernel) (by intro s h; cases h)) ?_
    rw [List.append_assoc, List.flatMap_map]
    exact rdSpells_append h3 (rdSpells_cons (ic.is hG (inQuotes k) hc (by decide +kernel) (by intro s h; cases h; exact hk))
      (rdSpells_cons (iy.is hG .rp hy (by decide +kernel) (by intro s h; cases h)) .nil))
  case cond =>
    intro h
    obtain ⟨hl, h⟩ := use (qs := [["ChildIs".toList, "lp".toList, "number".toList, "comma".toList, "string".toList, "rp".toList]]) h
      (by decide +kernel)
    obtain ⟨a, ks, rfl, ha, h⟩ := kids_cons (List.mem_singleton.1 h)
    obtain ⟨x, ks, rfl, hx, h⟩ := kids_cons h
    obtain ⟨c, ks, rfl, hc, h⟩ := kids_cons h
    obtain ⟨m, ks, rfl, hm', h⟩ := kids_cons h
    obtain ⟨d, ks, rfl, hd, h⟩ := kids_cons h
    obtain ⟨y, rfl, hy⟩ := kids1 h
    have ia := ih a (by simp); have ix := ih x (by simp); have ic := ih c (by simp); have im := ih m (by simp)
    have id := ih d (by simp); have iy := ih y (by simp)
    obtain ⟨k, hk⟩ := id.str hd
    have hact := acts_first hb ho (ks := [x, c, m, d, y]) (.inr hl) (a := a) (by rw [ha]; decide +kernel)
    rw [(ia.keep hG ha (by decide +kernel)).2, List.filter_cons_of_neg (by rw [hx]; decide +kernel), List.filter_cons_of_pos (by rw [hc]; decide +kernel),
      List.filter_cons_of_neg (by rw [hm']; decide +kernel), List.filter_cons_of_pos (by rw [hd]; decide +kernel),
      List.filter_cons_of_neg (by rw [hy]; decide +kernel)] at hact
    refine ⟨_, c, d, k, Reds.node (.cons (ia.keep hG ha (by decide +kernel)).1 (.cons (ix.keep hG hx (by decide +kernel)).1
      (.cons (ic.keep hG hc (by decide +kernel)).1 (.cons (im.keep hG hm' (by decide +kernel)).1
      (.cons (id.keep hG hd (by decide +kernel)).1 (.cons (iy.keep hG hy (by decide +kernel)).1 .nil)))))) hact, ha, rfl, hk, ?_⟩
    rw [hfr, frs_cons, frs_cons, frs_cons, frs_cons, frs_cons, frs_cons, PN.fringes]
    exact rdSpells_cons (ia.is hG (.word "ChildIs".toList) ha (by decide +kernel) (by intro s h; cases h))
      (rdSpells_cons (ix.is hG .lp hx (by decide +kernel) (by intro s h; cases h))
      (rdSpells_cons (ic.is hG (.number c.lx.val) hc (by decide +kernel) (by intro s h; cases h; rfl))
      (rdSpells_cons (im.is hG .comma hm' (by decide +kernel) (by intro s h; cases h))
      (rdSpells_cons (id.is hG (inQuotes k) hd (by decide +kernel) (by intro s h; cases h; exact hk))
      (rdSpells_cons (iy.is hG .rp hy (by decide +kernel) (by intro s h; cases h)) .nil)))))
  case red =>
    intro h
    obtain ⟨hl, h⟩ := use (qs := [
      ["PromoteSingleChild".toList, "NoArgs".toList], ["RemoveChildren".toList, "VarNumArg".toList],
      ["PromoteChildValue".toList, "OneNumArg".toList], ["RemoveChild".toList, "OneNumArg".toList],
      ["ReplaceWithChild".toList, "OneNumArg".toList], ["PromoteGrandChildren".toList, "NoArgs".toList],
      ["PromoteSingleChild".toList, "NoArgs".toList], ["PromoteChildrenOf".toList, "OneNumArg".toList],
      ["PromoteChild".toList, "OneNumArg".toList], ["RemoveAll".toList, "VarStrArg".toList], ["Nil".toList],
      ["If".toList, "lp".toList, "Condition".toList, "comma".toList, "Chain".toList, "comma".toList, "Chain".toList, "rp".toList]]) h
      (by decide +kernel)
    have none : ∀ A : Str, ∀ o : ROp Str, A ∉ rdAdds.map (·.1) → A ∉ ["comma".toList, "lp".toList, "rp".toList] →
        A ∉ ["period".toList] → A ∉ ["(Reduction_period)*".toList] →
        (∀ n : PN Str Str, n.kind = A → Spells n o) →
        Wr (.one (.op o)) [.word A, .lp, .rp] → ks.map PN.kind = [A, "NoArgs".toList] →
        ∃ t' s w, Reds (fun n => rdcr n b o1 o2) (.node l ks) t' ∧ SpellsL [t'] [s] ∧ t'.kind ∉ ["period".toList] ∧
          t'.kind ∉ ["(Reduction_period)*".toList] ∧ Wr (.one s) w ∧ RdSpells w (Json.fr G (.node l ks)) := by
      intro A o hA1 hA2 hA3 hA4 hs hw hks
      obtain ⟨a, c, rfl, ha, hc⟩ := kids2 hks
      have ia := ih a (by simp); have ic := ih c (by simp)
      obtain ⟨c', h1, h2, h3⟩ := ic.noArgs hc
      refine ⟨_, .op o, _, Reds.node (.cons (ia.keep hG ha hA1).1 (.cons h1 .nil))
        (red_spells hb ho hl ha (ia.keep hG ha hA1).2 hA2 (ks := [c']) ?_), .op (hs _ ha) .nil,
        kind_keep ha hA3, kind_keep ha hA4, hw, ?_⟩
      · intro k hk; rw [List.mem_singleton.1 hk, h2]; decide +kernel
      · rw [hfr, frs_cons, frs_cons, PN.fringes, List.append_nil]
        exact rdSpells_cons (ia.is hG (.word A) ha hA1 (by intro s h; cases h)) h3
    have one : ∀ A : Str, ∀ o : Int → ROp Str, A ∉ rdAdds.map (·.1) → A ∉ ["comma".toList, "lp".toList, "rp".toList] →
        A ∉ ["period".toList] → A ∉ ["(Reduction_period)*".toList] →
        (∀ (n : PN Str Str) a as i, n.kind = A → n.kids = a :: as → Num a i → Spells n (o i)) →
        (∀ v i, IntOf charNumerals v i → Wr (.one (.op (o i))) [.word A, .lp, .number v, .rp]) → ks.map PN.kind = [A, "OneNumArg".toList] →
        ∃ t' s w, Reds (fun n => rdcr n b o1 o2) (.node l ks) t' ∧ SpellsL [t'] [s] ∧ t'.kind ∉ ["period".toList] ∧
          t'.kind ∉ ["(Reduction_period)*".toList] ∧ Wr (.one s) w ∧ RdSpells w (Json.fr G (.node l ks)) := by
      intro A o hA1 hA2 hA3 hA4 hs hw hks
      obtain ⟨a, c, rfl, ha, hc⟩ := kids2 hks
      have ia := ih a (by simp); have ic := ih c (by simp)
      obtain ⟨c', d, h1, h2, h3, h4⟩ := ic.one hc
      obtain ⟨i, hi⟩ := int_ex d.lx.val
      refine ⟨_, .op (o i), _, Reds.node (.cons (ia.keep hG ha hA1).1 (.cons h1 .nil))
        (red_spells hb ho hl ha (ia.keep hG ha hA1).2 hA2 (ks := [c']) ?_), .op (hs _ c' [] i ha rfl (.inr ⟨d, [], h3, hi⟩)) .nil,
        kind_keep ha hA3, kind_keep ha hA4, hw _ _ hi, ?_⟩
      · intro k hk; rw [List.mem_singleton.1 hk, h2]; decide +kernel
      · rw [hfr, frs_cons, frs_cons, PN.fringes, List.append_nil]
        exact rdSpells_cons (ia.is hG (.word A) ha hA1 (by intro s h; cases h)) h4
    simp only [List.mem_cons, List.not_mem_nil, or_false] at h
    rcases h with h | h | h | h | h | h | h | h | h | h | h | h
    · exact none _ .promoteSingleChild (by decide +kernel) (by decide +kernel) (by decide +kernel) (by decide +kernel) (fun _ h => .single h) .single h
    · obtain ⟨a, c, rfl, ha, hc⟩ := kids2 h
      have ia := ih a (by simp); have ic := ih c (by simp)
      obtain ⟨c', h1, h2, h3, h4⟩ := ic.varNum hc
      obtain ⟨is, hi1, hi2, hi3⟩ := nums_ex c'.kids
      have ka := ia.keep hG ha (by decide +kernel)
      refine ⟨_, .op (.removeChildren is), _, Reds.node (.cons ka.1 (.cons h1 .nil))
        (red_spells hb ho hl ha ka.2 (by decide +kernel) (ks := [c']) ?_), .op (.removeChildren ha rfl ⟨hi1, hi2⟩) .nil,
        kind_keep ha (by decide +kernel), kind_keep ha (by decide +kernel),
        .removeChildren (by simpa using h3) hi3, ?_⟩
      · intro k hk; rw [List.mem_singleton.1 hk, h2]; decide +kernel
      · rw [hfr, frs_cons, frs_cons, PN.fringes, List.append_nil, List.map_map]
        exact rdSpells_cons (ia.is hG (.word "RemoveChildren".toList) ha (by decide +kernel) (by intro s h; cases h)) h4
    · exact one _ .promoteChildValue (by decide +kernel) (by decide +kernel) (by decide +kernel) (by decide +kernel)
        (fun _ _ _ _ h1 h2 h3 => .value h1 h2 h3) (fun _ _ h => .value h) h
    · exact one _ .removeChild (by decide +kernel) (by decide +kernel) (by decide +kernel) (by decide +kernel)
        (fun _ _ _ _ h1 h2 h3 => .removeChild h1 h2 h3) (fun _ _ h => .removeChild h) h
    · exact one _ .replaceWithChild (by decide +kernel) (by decide +kernel) (by decide +kernel) (by decide +kernel)
        (fun _ _ _ _ h1 h2 h3 => .replace h1 h2 h3) (fun _ _ h => .replace h) h
    · exact none _ .promoteGrandChildren (by decide +kernel) (by decide +kernel) (by decide +kernel) (by decide +kernel) (fun _ h => .grand h) .grand h
    · exact none _ .promoteSingleChild (by decide +kernel) (by decide +kernel) (by decide +kernel) (by decide +kernel) (fun _ h => .single h) .single h
    · exact one _ .promoteChildrenOf (by decide +kernel) (by decide +kernel) (by decide +kernel) (by decide +kernel)
        (fun _ _ _ _ h1 h2 h3 => .childrenOf h1 h2 h3) (fun _ _ h => .childrenOf h) h
    · exact one _ .promoteChild (by decide +kernel) (by decide +kernel) (by decide +kernel) (by decide +kernel)
        (fun _ _ _ _ h1 h2 h3 => .child h1 h2 h3) (fun _ _ h => .child h) h
    · obtain ⟨a, c, rfl, ha, hc⟩ := kids2 h
      have ia := ih a (by simp); have ic := ih c (by simp)
      obtain ⟨c', ks, h1, h2, h3, h4, h5⟩ := ic.varStr hc
      have ka := ia.keep hG ha (by decide +kernel)
      refine ⟨_, .op (.removeAll ks), _, Reds.node (.cons ka.1 (.cons h1 .nil))
        (red_spells hb ho hl ha ka.2 (by decide +kernel) (ks := [c']) ?_), .op (.removeAll ha rfl (quoteds_of h4)) .nil,
        kind_keep ha (by decide +kernel), kind_keep ha (by decide +kernel),
        .removeAll h3, ?_⟩
      · intro k hk; rw [List.mem_singleton.1 hk, h2]; decide +kernel
      · rw [hfr, frs_cons, frs_cons, PN.fringes, List.append_nil]
        exact rdSpells_cons (ia.is hG (.word "RemoveAll".toList) ha (by decide +kernel) (by intro s h; cases h)) h5
    · obtain ⟨a, rfl, ha⟩ := kids1 h
      have ia := ih a (by simp)
      have ka := ia.keep hG ha (by decide +kernel)
      refine ⟨_, .skip, _, Reds.node (.cons ka.1 .nil)
        (red_spells hb ho hl ha ka.2 (by decide +kernel) (ks := []) (by simp)),
        .skip (kind_keep ha (by decide +kernel)) .nil,
        kind_keep ha (by decide +kernel), kind_keep ha (by decide +kernel), .nil, ?_⟩
      rw [hfr, frs_cons, PN.fringes]
      exact rdSpells_cons (ia.is hG (.word "Nil".toList) ha (by decide +kernel) (by intro s h; cases h)) .nil
    · obtain ⟨a, ks, rfl, ha, h⟩ := kids_cons h
      obtain ⟨x, ks, rfl, hx, h⟩ := kids_cons h
      obtain ⟨c, ks, rfl, hc, h⟩ := kids_cons h
      obtain ⟨m, ks, rfl, hm', h⟩ := kids_cons h
      obtain ⟨d, ks, rfl, hd, h⟩ := kids_cons h
      obtain ⟨m2, ks, rfl, hm2, h⟩ := kids_cons h
      obtain ⟨e, ks, rfl, he, h⟩ := kids_cons h
      obtain ⟨y, rfl, hy⟩ := kids1 h
      have ia := ih a (by simp); have ix := ih x (by simp); have ic := ih c (by simp); have im := ih m (by simp)
      have id := ih d (by simp); have in2 := ih m2 (by simp); have ie := ih e (by simp); have iy := ih y (by simp)
      have ka := ia.keep hG ha (by decide +kernel)
      obtain ⟨c', p, q, k, c1, c2, c3, c4, c5⟩ := ic.cond hc
      obtain ⟨d', ss, w, d1, d2, d3, -, d4, d5⟩ := id.chain hd
      obtain ⟨e', ss', w', e1, e2, e3, -, e4, e5⟩ := ie.chain he
      obtain ⟨i, hi⟩ := int_ex p.lx.val
      have hact := acts_first hb ho (ks := [x, c', m, d', m2, e', y]) (.inl hl) (a := a) (by rw [ha]; decide +kernel)
      rw [ka.2, List.filter_cons_of_neg (by rw [hx]; decide +kernel), List.filter_cons_of_pos (by rw [c2]; decide +kernel),
        List.filter_cons_of_neg (by rw [hm']; decide +kernel), List.filter_cons_of_pos (by rw [d2]; decide +kernel),
        List.filter_cons_of_neg (by rw [hm2]; decide +kernel), List.filter_cons_of_pos (by rw [e2]; decide +kernel),
        List.filter_cons_of_neg (by rw [hy]; decide +kernel)] at hact
      refine ⟨_, .ifChildIs i k ss ss', _, Reds.node (.cons ka.1 (.cons (ix.keep hG hx (by decide +kernel)).1
        (.cons c1 (.cons (im.keep hG hm' (by decide +kernel)).1 (.cons d1 (.cons (in2.keep hG hm2 (by decide +kernel)).1
        (.cons e1 (.cons (iy.keep hG hy (by decide +kernel)).1 .nil)))))))) hact,
        .cond ha rfl c2 c3 hi c4 d3 e3 .nil,
        kind_keep ha (by decide +kernel), kind_keep ha (by decide +kernel), .cond hi d4 e4, ?_⟩
      rw [hfr, frs_cons, frs_cons, frs_cons, frs_cons, frs_cons, frs_cons, frs_cons, frs_cons, PN.fringes]
      have h1 := rdSpells_append e5 (iy.is hG .rp hy (by decide +kernel) (by intro s h; cases h))
      have h2 := rdSpells_cons (in2.is hG .comma hm2 (by decide +kernel) (by intro s h; cases h)) h1
      have h3 := rdSpells_cons (im.is hG .comma hm' (by decide +kernel) (by intro s h; cases h)) (rdSpells_append d5 h2)
      have h4 := rdSpells_append c5 h3
      have h5 := rdSpells_cons (ia.is hG (.word "If".toList) ha (by decide +kernel) (by intro s h; cases h))
        (rdSpells_cons (ix.is hG .lp hx (by decide +kernel) (by intro s h; cases h)) h4)
      simp only [List.append_nil]
      have e6 : ∀ {w w' z}, w = w' → RdSpells w z → RdSpells w' z := by rintro _ _ _ rfl h; exact h
      exact e6 (by simp) h5
  case reds =>
    intro h
    obtain ⟨hl, h⟩ := use (qs := [["Reduction".toList, "period".toList, "(Reduction_period)*".toList], []]) h (by decide +kernel)
    simp only [List.mem_cons, List.not_mem_nil, or_false] at h
    rcases h with h | h
    · obtain ⟨c, y, z, rfl, hc, hy, hz⟩ := kids3 h
      have ic := ih c (by simp); have iy := ih y (by simp); have iz := ih z (by simp)
      obtain ⟨c', s, w, c1, c2, c3, c4, c5, c6⟩ := ic.red hc
      obtain ⟨z', ss, v, z1, z2, z3, z4, z5⟩ := iz.reds hz
      refine ⟨.node l [c', y, z'], s :: ss, w ++ .period :: v, Reds.node (.cons c1 (.cons (iy.keep hG hy (by decide +kernel)).1
        (.cons z1 .nil))) (acts_keep hb ho (by rw [hl]; decide +kernel) (by rw [hl]; decide +kernel)), ?_, ?_, ?_, ?_⟩
      · rw [flats_self (by rw [hl]; decide +kernel), flats_keep c4, flats_keep (by rw [hy]; decide +kernel)]
        exact spellsL_append c2 (.sep (by rw [hy]; decide +kernel) z2)
      · rw [flats_self (by rw [hl]; decide +kernel), flats_keep c4, flats_keep (by rw [hy]; decide +kernel), noPeriod,
          List.filter_cons_of_pos (by simpa using c3), List.filter_cons_of_neg (by rw [hy]; decide +kernel)]
        exact spellsL_append c2 z3
      · intro ss' w' h
        rw [List.append_assoc]
        exact .more c5 (z4 ss' w' h)
      · rw [hfr, frs_cons, frs_cons, frs_cons, PN.fringes, List.append_nil]
        exact rdSpells_append c6 (rdSpells_cons (iy.is hG .period hy (by decide +kernel) (by intro s h; cases h)) z5)
    · have := kids_nil h
      subst this
      refine ⟨.node l [], [], [], Reds.node .nil (acts_keep hb ho (by rw [hl]; decide +kernel) (by rw [hl]; decide +kernel)), ?_, ?_, ?_, ?_⟩
      · rw [flats_self (by rw [hl]; decide +kernel)]
        exact .nil
      · rw [flats_self (by rw [hl]; decide +kernel)]
        exact .nil
      · intro ss' w' h; exact h
      · rw [hfr]; exact .nil
  case chain =>
    intro h
    obtain ⟨hl, h⟩ := use (qs := [["(Reduction_period)*".toList, "Reduction".toList]]) h (by decide +kernel)
    obtain ⟨z, c, rfl, hz, hc⟩ := kids2 (List.mem_singleton.1 h)
    have ic := ih c (by simp); have iz := ih z (by simp)
    obtain ⟨c', s, w, c1, c2, c3, c4, c5, c6⟩ := ic.red hc
    obtain ⟨z', ss, v, z1, z2, z3, z4, z5⟩ := iz.reds hz
    have e : flats ["(Reduction_period)*".toList] [z', c'] = flats ["(Reduction_period)*".toList] [z'] ++ [c'] := by
      rw [show [z', c'] = [z'] ++ [c'] from rfl, flats_append, flats_keep c4]; rfl
    have ha := acts_unwrap hb ho (ks := [z', c']) hl (h := "(Reduction_period)*".toList) (by decide +kernel) (by decide +kernel)
    rw [e] at ha
    refine ⟨_, ss ++ [s], v ++ w, Reds.node (.cons z1 (.cons c1 .nil)) ha, hl, spellsL_append z2 c2, ?_, z4 _ _ (.last c5), ?_⟩
    · rw [noPeriod, PN.kids, List.filter_append, List.filter_cons_of_pos (by simpa using c3)]
      exact spellsL_append z3 c2
    · rw [hfr, frs_cons, frs_cons, PN.fringes, List.append_nil]
      exact rdSpells_append z5 c6
  case rule =>
    intro h
    obtain ⟨hl, h⟩ := use (qs := [["rule".toList, "Chain".toList]]) h (by decide +kernel)
    obtain ⟨a, c, rfl, ha, hc⟩ := kids2 (List.mem_singleton.1 h)
    have ia := ih a (by simp); have ic := ih c (by simp)
    obtain ⟨c', ss, w, c1, c2, c3, c4, c5, c6⟩ := ic.chain hc
    refine ⟨_, ss, w, Reds.node (.cons (ia.keep hG ha (by decide +kernel)).1 (.cons c1 .nil)) (acts_rule hb ho hl), rfl, c4, c5, ?_⟩
    rw [hfr, frs_cons, frs_cons, PN.fringes, List.append_nil]
    exact rdSpells_cons (ia.is hG (.rule a.lx.val) ha (by decide +kernel) (by intro s h; cases h; rfl)) c6
  case rulesStar =>
    intro h
    obtain ⟨hl, h⟩ := use (qs := [["Rule".toList, "Rule*".toList], []]) h (by decide +kernel)
    simp only [List.mem_cons, List.not_mem_nil, or_false] at h
    rcases h with h | h
    · obtain ⟨c, z, rfl, hc, hz⟩ := kids2 h
      have ic := ih c (by simp); have iz := ih z (by simp)
      obtain ⟨c', ss, w, c1, c2, c3, c4, c5⟩ := ic.rule hc
      obtain ⟨z', D, v, z1, z2, z3, z4⟩ := iz.rulesStar hz
      refine ⟨.node l [c', z'], (c'.lx.val, ss) :: D, .rule c'.lx.val :: (w ++ v), Reds.node (.cons c1 (.cons z1 .nil))
        (acts_keep hb ho (by rw [hl]; decide +kernel) (by rw [hl]; decide +kernel)), ?_, .cons c4 z3, ?_⟩
      · rw [flats_self (by rw [hl]; decide +kernel), flats_keep (by rw [c2]; decide +kernel)]
        exact .rule c2 c3 z2
      · rw [hfr, frs_cons, frs_cons, PN.fringes, List.append_nil]
        exact rdSpells_append c5 z4
    · have := kids_nil h
      subst this
      refine ⟨.node l [], [], [], Reds.node .nil (acts_keep hb ho (by rw [hl]; decide +kernel) (by rw [hl]; decide +kernel)), ?_, .nil, ?_⟩
      · rw [flats_self (by rw [hl]; decide +kernel)]
        exact .nil
      · rw [hfr]; exact .nil
  case rules =>
    intro h
    obtain ⟨hl, h⟩ := use (qs := [["Rule*".toList]]) h (by decide +kernel)
    obtain ⟨z, rfl, hz⟩ := kids1 (List.mem_singleton.1 h)
    obtain ⟨z', D, v, z1, z2, z3, z4⟩ := (ih z (by simp)).rulesStar hz
    refine ⟨_, D, v, Reds.node (.cons z1 .nil) (acts_unwrap hb ho hl (h := "Rule*".toList) (by decide +kernel) (by decide +kernel)), z2, z3, ?_⟩
    rw [hfr, frs_cons, PN.fringes, List.append_nil]
    exact z4

/-- Every derivation tree reads as it is written. -/
theorem reads_valid (hb : DB b) (ho : Orders o1 o2) (hG : DG G) {t : PN Str Str} (hv : t.Valid G)
    (hs : ∀ l ∈ Json.fr G t, l.kind = "string".toList → ∃ k, l.val = '"' :: k ++ ['"']) :
    Reads (fun n => rdcr n b o1 o2) G t := by
  induction hv with
  | @leaf l h =>
    refine reads_leaf hb ho hG h (hs l ?_)
    show l ∈ PN.fringe _ _
    rw [PN.fringe, if_pos (by rw [show G.prods l.kind = none from h]; rfl)]
    simp
  | @inner l ks k p hr hp hvs ih =>
    have hm : (l.kind, ks.map PN.kind) ∈ rdAdds := hG.rule.1 ⟨k, hp ▸ hr⟩
    refine reads_inner hb ho hG hm fun c hc => ih c hc fun x hx => hs x ?_
    have hnt : ¬ G.Term l.kind := fun h => hG.term.1 h _ hm
    rw [show Json.fr G (.node l ks) = PN.fringes (fun s => (G.prods s).isNone) ks from fr_node hnt]
    clear hvs ih hs hm hp hr
    induction ks with
    | nil => cases hc
    | cons a ks ih =>
      rw [frs_cons]
      rcases List.mem_cons.1 hc with rfl | hc
      · exact List.mem_append_left _ hx
      · exact List.mem_append_right _ (ih hc)
end

end Verif.ReducerDSL
