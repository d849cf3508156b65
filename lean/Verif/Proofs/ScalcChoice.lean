import Verif.Proofs.ScalcKnown
/- Three values and a question mark. -/
namespace Verif.Scalc
open Verif Verif.Spec Verif.Spec.Scalc Verif.Tree

variable {N : Type}

/-- How many values are left. -/
def dep : List Kind → Int
  | [] => 0
  | .int :: w => 1 + dep w
  | .bop :: w => -1 + dep w
  | _ :: w => dep w

theorem dep_append (a b : List Kind) : dep (a ++ b) = dep a + dep b := by
  induction a with
  | nil => simp [dep]
  | cons k a ih => cases k <;> simp only [List.cons_append, dep] <;> omega

def Frag (w : List Kind) : Prop := ∀ k ∈ w, k ∈ frag

theorem Frag.left {a b : List Kind} (h : Frag (a ++ b)) : Frag a := fun k hk => h k (by simp [hk])
theorem Frag.right {a b : List Kind} (h : Frag (a ++ b)) : Frag b := fun k hk => h k (by simp [hk])
theorem Frag.choice {w : List Kind} (h : Frag w) : .choice ∉ w := fun hm => absurd (h _ hm) (by decide)

theorem frag_op {q : Part} {k : Kind} {v : List Kind} (hq : (q, k) ∈ operators) (h : Is q v) (hf : Frag v) : v = [k] ∧ (k = .uop ∨ k = .bop) := by
  have hv := op_one hq h hf.choice
  subst hv
  refine ⟨rfl, ?_⟩
  have := hf k (by simp)
  simp only [operators, List.mem_cons, Prod.mk.injEq, List.not_mem_nil, or_false] at hq
  rcases hq with ⟨-, rfl⟩ | ⟨-, rfl⟩ | ⟨-, rfl⟩ | ⟨-, rfl⟩
  · exact .inl rfl
  · exact .inr rfl
  · exact absurd this (by decide)
  · exact absurd this (by decide)

theorem frag_value {w : List Kind} (h : Is .value w) : Frag w → dep w = 1 := by
  generalize hq : Part.value = q at h
  induction h with
  | none | push | paren | manip => cases hq
  | int | dec => intro _; rfl
  | @un a b _ hb iha _ =>
    intro hf
    obtain ⟨rfl, -⟩ := frag_op (k := .uop) (by simp [operators]) hb hf.right
    rw [dep_append, iha rfl hf.left]
    rfl
  | @bin a b c _ _ hc iha ihb _ =>
    intro hf
    obtain ⟨rfl, -⟩ := frag_op (k := .bop) (by simp [operators]) hc hf.right.right
    rw [dep_append, dep_append, iha rfl hf.left, ihb rfl hf.right.left]
    rfl
  | @fold a b _ hb =>
    intro hf
    obtain ⟨-, h | h⟩ := frag_op (k := .sop) (by simp [operators]) hb hf.right <;> cases h
  | cond => intro hf; exact absurd (by simp) hf.choice
  | op h => subst hq; simp [operators] at h
  | choose h => subst hq; simp [operators] at h

theorem mem_frag_two {w u : List Kind} {x : Kind} (e : w ++ [x] = u ++ [x]) (hf : Frag w) : Frag u := by
  have := List.append_inj_left' e rfl
  exact this ▸ hf

/-- Choices among operators. -/
theorem op_choice {q : Part} {k : Kind} {x v w : List Kind} (hq : (q, k) ∈ operators) (h : Is q v) (hf : Frag w) (e : w ++ [.choice] = x ++ v) :
    ∃ c, Is .value c ∧ w = x ++ (k :: k :: c) ∧ (k = .uop ∨ k = .bop) := by
  cases h with
  | none | push | paren | manip | int | dec | un | bin | fold | cond => simp [operators] at hq
  | @op _ k' h =>
    exfalso
    have := List.append_inj_right' e rfl
    simp only [List.cons.injEq, and_true] at this
    subst this
    simp [operators] at h
  | @choose _ k' a b c hq' ha hb hc =>
    have e' : w ++ [.choice] = (x ++ (a ++ (b ++ c))) ++ [.choice] := by simpa using e
    have hw := List.append_inj_left' e' rfl
    subst hw
    obtain ⟨rfl, hk⟩ := frag_op hq ha hf.right.left
    obtain ⟨rfl, -⟩ := frag_op hq hb hf.right.right.left
    exact ⟨c, hc, by simp, hk⟩

/-- Ways of reading three values and a question mark as a value. -/
theorem reading_choice {G : Grammar Str} (hG : SOK G) {k a} {w : List Kind} (hf : Frag w) (hd : dep w = 3)
    (h : G.Reading (pn .value) k a ((w ++ [Kind.choice]).map kn)) : k = 1 ∧ a.map (·.1) = [pn .value, pn .value, pn .value, kn .choice] := by
  obtain ⟨ps, h1, us, h2, rfl, h3, h4⟩ := reading_words hG h
  have hps : ps = [[pn .stack, pn .fold], [pn .value, pn .value, pn .value, kn .choice], [pn .value, pn .unary], [pn .value, pn .value, pn .binary], ["Number".toList]] := by
    have key : ∀ y ∈ sTable, y.1 = pn .value → y.2 = [[pn .stack, pn .fold], [pn .value, pn .value, pn .value, kn .choice], [pn .value, pn .unary],
      [pn .value, pn .value, pn .binary], ["Number".toList]] := by decide
    exact key _ h1 rfl
  subst hps
  match k, h2 with
  | 0, h2 =>
    exfalso
    obtain ⟨u, v, rfl⟩ := fst_two (Option.some.inj h2).symm
    have hv : Is .fold v := (h3 (pn .fold, v) (.tail _ (.head _))).part
    obtain ⟨c, -, -, h | h⟩ := op_choice (k := .sop) (by simp [operators]) hv hf (by simpa using h4.symm) <;> cases h
  | 1, h2 => exact ⟨rfl, by rw [List.map_map]; exact (Option.some.inj h2).symm⟩
  | 2, h2 =>
    exfalso
    obtain ⟨u, v, rfl⟩ := fst_two (Option.some.inj h2).symm
    have hv : Is .unary v := (h3 (pn .unary, v) (.tail _ (.head _))).part
    have hu : Is .value u := (h3 (pn .value, u) (.head _)).part
    obtain ⟨c, hc, rfl, -⟩ := op_choice (k := .uop) (by simp [operators]) hv hf (by simpa using h4.symm)
    have hf2 : Frag ([.uop, .uop] ++ c) := hf.right
    rw [dep_append, frag_value hu hf.left] at hd
    simp only [dep, frag_value hc hf2.right] at hd
    omega
  | 3, h2 =>
    exfalso
    obtain ⟨u, u', v, rfl⟩ := fst_three (Option.some.inj h2).symm
    have hv : Is .binary v := (h3 (pn .binary, v) (.tail _ (.tail _ (.head _)))).part
    have hu : Is .value u := (h3 (pn .value, u) (.head _)).part
    have hu' : Is .value u' := (h3 (pn .value, u') (.tail _ (.head _))).part
    obtain ⟨c, hc, rfl, -⟩ := op_choice (k := .bop) (x := u ++ u') (by simp [operators]) hv hf (by simpa using h4.symm)
    have hf2 : Frag ([.bop, .bop] ++ c) := hf.right
    rw [dep_append, dep_append, frag_value hu hf.left.left, frag_value hu' hf.left.right] at hd
    simp only [dep, frag_value hc hf2.right] at hd
    omega
  | 4, h2 =>
    exfalso
    have e := (Option.some.inj h2).symm
    obtain ⟨⟨y, v⟩, rfl, hy⟩ := List.map_eq_singleton_iff.1 e
    have hy : y = "Number".toList := hy
    subst hy
    have : For "Number".toList v := h3 _ (.head _)
    have h4 : v = w ++ [.choice] := by simpa using h4
    rcases this.number with rfl | rfl
    · have := congrArg List.getLast? h4
      simp at this
    · have := congrArg List.getLast? h4
      simp at this
  | k + 5, h2 => simp at h2

theorem settled_choice {G : Grammar Str} (hG : SOK G) {w : List Kind} (hf : Frag w) (hd : dep w = 3) (hv : Is .value (w ++ [.choice])) :
    G.Settled (pn .stack) ((w ++ [Kind.choice]).map kn) 1 [rd (pn .value) (w ++ [.choice]), rd (pn .stack) []] := by
  refine ⟨⟨rule_at hG (p := [pn .value, pn .stack]) (by decide), ?_, by simp⟩, 1, fun k' b hb hne => ?_⟩
  · intro x hx
    simp only [List.mem_cons, List.not_mem_nil, or_false] at hx
    rcases hx with rfl | rfl
    · exact derives_is hG hv
    · exact derives_is hG (q := .stack) .none
  · rcases reading_stack hG hb with ⟨rfl, u, v, e, -, h, rfl⟩ | ⟨rfl, u, v, e, hu, hs, rfl⟩ | ⟨rfl, -⟩ | ⟨rfl, -⟩
    · exfalso
      obtain ⟨c, -, -, h | h⟩ := op_choice (k := .smp) (by simp [operators]) h hf e <;> cases h
    · right
      rcases list_cases v with rfl | ⟨v, c, rfl⟩
      · exfalso
        rw [List.append_nil] at e
        subst e
        exact hne rfl
      rw [← List.append_assoc] at e
      have hfu : Frag (u ++ v) := by
        have := List.append_inj_left' e rfl
        exact this ▸ hf
      refine ⟨rfl, .inl ⟨fun e' => ?_, fun ht => ?_, fun k a k' b h1 h2 => .inl ?_⟩⟩
      · have e' : w ++ [Kind.choice] = u := (List.map_inj_right fun a b => kn_inj).1 e'
        have := hfu.left.choice
        rw [← e'] at this
        simp at this
      · have h0 : G.prods (pn .value) = some _ := hG.prods _ (.tail _ (.head _))
        have ht : G.prods (pn .value) = none := ht
        rw [ht] at h0
        cases h0
      · obtain ⟨rfl, -⟩ := reading_choice hG hf hd h1
        obtain ⟨ps, g1, us, g2, rfl, g3, g4⟩ := reading_words hG h2
        have hps : ps = [[pn .stack, pn .fold], [pn .value, pn .value, pn .value, kn .choice], [pn .value, pn .unary], [pn .value, pn .value, pn .binary], ["Number".toList]] := by
          have key : ∀ y ∈ sTable, y.1 = pn .value → y.2 = [[pn .stack, pn .fold], [pn .value, pn .value, pn .value, kn .choice], [pn .value, pn .unary],
            [pn .value, pn .value, pn .binary], ["Number".toList]] := by decide
          exact key _ g1 rfl
        subst hps
        match k', g2 with
        | 0, g2 =>
          exfalso
          rcases reading_value hG h2 hfu.left.choice with ⟨-, y, rfl, -⟩ | ⟨h, -⟩
          · exact absurd (hfu.left .sop (by simp)) (by decide)
          · exact absurd h (by decide)
        | 1, g2 =>
          exfalso
          have : kn .choice ∈ us.map (·.1) := by
            rw [← Option.some.inj g2]; simp
          obtain ⟨⟨y, v⟩, hx, e⟩ := List.mem_map.1 this
          have e : y = kn .choice := e
          subst e
          have hy : For (kn .choice) v := g3 _ hx
          obtain rfl := hy.tok
          exact hfu.left.choice (by rw [← g4]; exact List.mem_flatten.2 ⟨_, List.mem_map.2 ⟨_, hx, rfl⟩, .head _⟩)
        | k + 2, _ => omega
    all_goals exact .inl (by omega)

theorem evalStack_choice (A : Arith N) {l : Lexeme Str Str} (h : l.kind = "?".toList) {x y c : PN Str Str} {vx vy vc : PF N} (hx : EV A x vx) (hy : EV A y vy)
    (hc : EV A c vc) : Out.Returns (fun n => evalStack A n (.node l [x, y, c])) [if A.lt A.zero vc.V then vy else vx] := by
  have h0 : (PN.node l [x, y, c]).kind = "?".toList := h
  have e1 : Tree.child (.node l [x, y, c]) (-1) = .ok (some c) := child_sel (l := l) (sel_last [x, y] c)
  have e2 : Tree.removeChild (.node l [x, y, c]) (-1) = .ok (.node l [x, y], true) := removeChild_sel (l := l) (sel_last [x, y] c)
  have e3 : Tree.removeChild (.node l [x, y]) (-2) = .ok (.node l [y], true) := removeChild_sel (l := l) (sel_last2 [] x y)
  have e4 : Tree.removeChild (.node l [x, y]) (-1) = .ok (.node l [x], true) := removeChild_sel (l := l) (sel_last [x] y)
  have e5 : ∀ z : PN Str Str, Tree.promoteChild (.node l [z]) (-1) = .ok (z, true) := by
    intro z
    have := promoteChild_sel (l := l) (sel_last [] z)
    cases z
    simpa [PN.lx, PN.kids] using this
  have one : ∀ {t : PN Str Str} {v}, EV A t v → Out.Returns (fun n => evalStack A n t) [v] := fun h => evalStack_ev (.cons h .nil) (.inr rfl)
  refine returns_succ (g := fun n => (evalE A n c).bind fun v => evalStack A n (if A.lt A.zero v.V then y else x)) (fun n => ?_)
    (returns_bind hc.1 (g := fun v n => evalStack A n (if A.lt A.zero v.V then y else x)) ?_)
  · rw [evalStack, if_pos h0, e1, Out.bind_ok]
    simp only
    congr 1
    funext v
    rw [e2, Out.bind_ok]
    by_cases hb : A.lt A.zero v.V
    · simp only [hb, if_true]
      rw [e3, Out.bind_ok]
      simp only
      rw [e5, Out.bind_ok]
    · simp only [hb]
      rw [if_neg (by simp), e4, Out.bind_ok]
      simp only
      rw [e5, Out.bind_ok]
      simp
  · by_cases hb : A.lt A.zero vc.V
    · simpa [hb] using one hy
    · simpa [hb] using one hx

theorem words_fringes (p : Str → Bool) (ka : List (PN Str Str)) :
    (ka.map ((fun x => x.2) ∘ fun t => (t.kind, (PN.fringe p t).map (·.kind)))).flatten = (PN.fringes p ka).map (·.kind) := by
  induction ka with
  | nil => rfl
  | cons t ka ih =>
    rw [List.map_cons, List.flatten_cons, ih, PN.fringes, List.map_append]
    rfl

/-- **Reducing and running.** -/
theorem choice_tree {A : Arith N} {G : Grammar Str} (hG : SOK G) {t : PN Str Str} {u : List Tok} (h : Sub G t u) (hk : t.kind = pn .stack) {w : List Kind}
    (hu : u.map (·.1) = w ++ [.choice]) (hf : Frag w) (hd : dep w = 3) (hv : Is .value (w ++ [.choice])) (hfine : ∀ x ∈ u, x.1 ∈ frag → Fine A x) :
    ∃ t' v, rawReduce rdcr t () = .ok (t', ()) ∧ Out.Returns (fun n => evalStack A n t') [v] ∧ exec A u [] [] = some [v] := by
  obtain ⟨l, ks⟩ := t
  have hl : l.kind = pn .stack := hk
  obtain ⟨hkk, vs, rfl, h2, h3⟩ := h.kids (us := [(pn .value, w ++ [.choice]), (pn .stack, [])]) (by rw [hl, hu]; exact settled_choice hG hf hd hv)
  obtain ⟨a, _, rfl, ha, hkk⟩ := List.map_eq_cons_iff.1 hkk
  obtain ⟨b, rfl, hb⟩ := List.map_eq_singleton_iff.1 hkk
  cases h2 with
  | @cons _ va _ _ sa h2 =>
  cases h2 with
  | @cons _ vb _ _ sb h2 =>
  cases h2
  simp only [List.map_cons, List.map_nil, List.cons.injEq, List.map_eq_nil_iff, and_true] at h3
  obtain ⟨hva, rfl⟩ := h3
  obtain ⟨lb, hlb, rb⟩ := seg_none (A := A) hG sb hb
  simp only [List.flatten_cons, List.flatten_nil, List.append_nil] at hfine ⊢
  -- the value
  obtain ⟨la, ka⟩ := a
  have hla : la.kind = pn .value := ha
  have hwa := sa.word
  obtain ⟨hval, hbst, hfr⟩ := sa
  cases hval with
  | leaf ht =>
    have h0 : G.prods (pn .value) = some _ := hG.prods _ (.tail _ (.head _))
    rw [← hla, show G.prods la.kind = none from ht] at h0
    cases h0
  | @inner _ _ k p hr hp hval =>
  have hT : isT G la.kind = false := by
    obtain ⟨ps, h1, -⟩ := hr
    simp [isT, h1]
  cases hbst with
  | leaf ht => simp [isT, show G.prods la.kind = none from ht] at hT
  | inner _ _ hbst =>
  rw [PN.fringe, hT] at hfr
  obtain ⟨ws, h6, h7⟩ := sub_split hval hbst hfr
  have hread : G.Reading (pn .value) k (ka.map fun t => (t.kind, t.word G)) ((w ++ [Kind.choice]).map kn) := by
    refine ⟨?_, ?_, ?_⟩
    · rw [List.map_map]
      rw [← hla]
      have : ka.map PN.kind = p := hp
      rw [← this] at hr
      exact hr
    · intro x hx
      obtain ⟨t, ht, rfl⟩ := List.mem_map.1 hx
      exact Grammar.Valid.derives (hval t ht)
    · rw [← hva, ← hwa]
      simp only [PN.word, List.map_map, PN.fringe]
      rw [if_neg (by rw [show (G.prods la.kind).isNone = false from hT]; decide)]
      exact words_fringes _ ka
  have hkinds := (reading_choice hG hf hd hread).2
  rw [List.map_map] at hkinds
  have hkinds : ka.map PN.kind = [pn .value, pn .value, pn .value, kn .choice] := hkinds
  obtain ⟨c, _, rfl, hc, hkinds⟩ := List.map_eq_cons_iff.1 hkinds
  obtain ⟨d, _, rfl, hd', hkinds⟩ := List.map_eq_cons_iff.1 hkinds
  obtain ⟨e, _, rfl, he, hkinds⟩ := List.map_eq_cons_iff.1 hkinds
  obtain ⟨g, rfl, hg⟩ := List.map_eq_singleton_iff.1 hkinds
  cases h7 with
  | @cons _ vc _ _ sc h7 =>
  cases h7 with
  | @cons _ vd _ _ sd h7 =>
  cases h7 with
  | @cons _ ve _ _ se h7 =>
  cases h7 with
  | cons sg h7 =>
  cases h7
  obtain ⟨lg, rfl, hlg, rfl, rg⟩ := sub_leaf hG sg hg
  simp only [List.flatten_cons, List.flatten_nil, List.append_nil] at h6
  subst h6
  have hw : w = (vc ++ (vd ++ ve)).map (·.1) := by
    have : w ++ [Kind.choice] = (vc ++ (vd ++ ve)).map (·.1) ++ [.choice] := by rw [← hva]; simp
    exact List.append_inj_left' this rfl
  have fine : ∀ x ∈ vc ++ (vd ++ ve), Fine A x := by
    intro x hx
    refine hfine x ?_ (hf x.1 (by rw [hw]; exact List.mem_map.2 ⟨x, hx, rfl⟩))
    rcases List.mem_append.1 hx with hx | hx
    · simp [hx]
    · rcases List.mem_append.1 hx with hx | hx <;> simp [hx]
  obtain ⟨c', rc, runc⟩ := run_tree (A := A) hG sc.valid vc sc.fr fun x hx => fine x (by simp [hx])
  obtain ⟨d', rd', rund⟩ := run_tree (A := A) hG sd.valid vd sd.fr fun x hx => fine x (by simp [hx])
  obtain ⟨e', re, rune⟩ := run_tree (A := A) hG se.valid ve se.fr fun x hx => fine x (by simp [hx])
  obtain ⟨x, hx, -, xc⟩ := runc.value hc
  obtain ⟨y, hy, yh, yc⟩ := rund.value hd'
  obtain ⟨z, hz, zh, zc⟩ := rune.value he
  have rE : rawReduce rdcr (.node la [c, d, e, .node lg []]) () = .ok (.node lg [c', d', e'], ()) :=
    red_last (pre := [c', d', e']) hla (by decide) (reds_cons rc (reds_cons rd' (reds_cons re (reds_cons rg reds_nil))))
  refine ⟨.node lg [c', d', e'], _, ?_, evalStack_choice A hlg hx hy hz, ?_⟩
  · rw [red_stack hl (reds_cons rE (reds_cons rb reds_nil))]
    have u1 : up1 [.node lg [c', d', e'], .node lb []] = [.node lg [c', d', e']] := by
      show (if lb.kind = "Stack".toList then _ else _) = _
      rw [if_pos hlb]
      rfl
    have u2 : up2 [.node lg [c', d', e']] = [.node lg [c', d', e']] := by
      show (if lg.kind = "Stack".toList then _ else _) = _
      rw [if_neg (by rw [hlg]; decide)]
    rw [u1, u2]
    show Out.ok (if _ ∨ _ ∨ [PN.node lg [c', d', e']].length = 1 then _ else _, ()) = _
    rw [if_pos (.inr (.inr rfl))]
    rfl
  · rw [xc _ _ _ yh.append.noDec, yc _ _ _ zh.append.noDec, zc _ _ _ (noDec_one (by decide)), exec]
    rfl

/-- **Evaluating three values and a question mark.** -/
theorem eval_choice {A : Arith N} {G : Grammar Str} (hg : grmr = .ok G) (hG : SOK G) {ls : List (Lexeme Str Str)} {ts : List Tok} {a b c : List Kind}
    (hls : ls.map kv = ts.map tokKv') (ha : Is .value a) (hb : Is .value b) (hc : Is .value c) (hw : ts.map (·.1) = a ++ (b ++ (c ++ [.choice])))
    (hf : Frag (a ++ (b ++ c))) (hfine : ∀ x ∈ ts, x.1 ∈ frag → Fine A x) :
    ∃ v, exec A ts [] [] = some [v] ∧ Out.Returns (fun n => evalLexemes A n ls) (some [v]) := by
  have hk : ls.map (·.kind) = (ts.map (·.1)).map kn := by
    have := congrArg (List.map Prod.fst) hls
    simpa [Function.comp_def, kv, tokKv'] using this
  have ht : ∀ l ∈ ls, G.Term l.kind := by
    intro l hl
    have : l.kind ∈ ls.map (·.kind) := List.mem_map.2 ⟨l, hl, rfl⟩
    rw [hk] at this
    obtain ⟨k, -, e⟩ := List.mem_map.1 this
    rw [← e]
    exact hG.term k
  have h0 : G.order.head? = some (pn .stack) := by rw [hG.order]; rfl
  have hv : Is .value (a ++ (b ++ c) ++ [.choice]) := by simpa using Is.cond ha hb hc
  have hw : ts.map (·.1) = a ++ (b ++ c) ++ [.choice] := by simpa using hw
  have hd : dep (a ++ (b ++ c)) = 3 := by
    rw [dep_append, dep_append, frag_value ha hf.left, frag_value hb hf.right.left, frag_value hc hf.right.right]
    rfl
  rcases Props.Packrat.parse_spec [] G hG.wf ls ht with ⟨t, ⟨K, hK⟩, hp, -, -, hb⟩ | ⟨h, -⟩
  · have hk : t.kind = pn .stack := by
      have := hp.1
      rw [h0] at this
      exact (Option.some.inj this).symm
    obtain ⟨t', v, h1, ⟨J, hJ⟩, h5⟩ := choice_tree hG ⟨hp.2.1, hb (cycle_free hG), by rw [hp.2.2]; exact hls⟩ hk hw hf hd hv hfine
    refine ⟨v, h5, max K J, fun n hn => ?_⟩
    simp only [evalLexemes, parseLexemes]
    rw [hg, Out.bind_ok, hK n (by omega), Out.bind_ok, Tree.reduce, h1, Out.bind_ok, Out.bind_ok, Out.bind_ok]
    simp only
    rw [show evalStack A n t' = _ from hJ n (by omega), Out.bind_ok]
  · exfalso
    apply h
    rw [hk, sentence_iff hG, hw]
    simpa using Is.push hv .none

end Verif.Scalc
