import Verif.Props.SimpleLexerSearch
/-
The searches of the simple lexer from below (C96): every token was found by a search, and costs one.
-/
namespace Verif.Props.SimpleLexerLeast
open Verif Verif.SetSymbol Verif.SimpleLexer Verif.Spec Verif.Props.SimpleLexerSearch

/-- A lexeme that is a match of a rule: not an error, and not inserted at the start or the end. -/
def isTok (x : Lx) : Bool := !x.err && (match x.kind with | .idx _ => true | .plain _ => false)

/-- The matches of rules among lexemes. -/
def toks (lxs : List Lx) : List Lx := lxs.filter isTok

theorem choose_from (cmp : Cmp) (b : Bytes) (cur : Nat) : ∀ (es : List Ent) (c : Choice),
    choose cmp b cur c es = c ∨ ∃ r loc, (r, some loc) ∈ es ∧ loc.1 = cur ∧ (choose cmp b cur c es).val = slice b loc.1 loc.2
  | [], _ => .inl rfl
  | (r, none) :: es, c => by
    rw [choose]
    rcases choose_from cmp b cur es c with h | ⟨r', loc, h1, h2⟩
    · exact .inl h
    · exact .inr ⟨r', loc, List.mem_cons_of_mem _ h1, h2⟩
  | (r, some loc) :: es, c => by
    rw [choose]
    split
    · rename_i h
      rcases choose_from cmp b cur es ⟨some r, slice b loc.1 loc.2, loc.2, r.priority⟩ with h' | ⟨r', loc', h1, h2⟩
      · exact .inr ⟨r, loc, List.mem_cons_self, h.1, by rw [h']⟩
      · exact .inr ⟨r', loc', List.mem_cons_of_mem _ h1, h2⟩
    · rcases choose_from cmp b cur es c with h | ⟨r', loc', h1, h2⟩
      · exact .inl h
      · exact .inr ⟨r', loc', List.mem_cons_of_mem _ h1, h2⟩

theorem check_toks (error b : Bytes) (op : Op) : toks (checkError error b op).lxs = toks op.lxs := by
  unfold checkError
  split
  · rfl
  · simp [toks, isTok]

/-- A round makes at most one token, from an entry whose match begins there. -/
theorem body_toks {cmp : Cmp} {error b : Bytes} {op op' : Op} (h : body cmp error b op = .ok op') :
    toks op'.lxs = toks op.lxs ∨ ∃ x r loc, toks op'.lxs = toks op.lxs ++ [x] ∧ (r, some loc) ∈ op.next ∧ loc.1 = op.cur ∧
      x.val = slice b loc.1 loc.2 := by
  unfold body findNextMatch at h
  simp only at h
  split at h
  · cases h; exact .inl rfl
  · rename_i hne
    split at h
    · cases h
    · rename_i r hr
      cases h
      dsimp only
      split
      · exact .inl (check_toks _ _ _)
      · right
        rcases choose_from cmp b op.cur op.next ⟨none, [], op.cur, -1⟩ with h | ⟨r', loc, h1, h2, h3⟩
        · rw [h] at hne
          exact absurd rfl hne
        · refine ⟨⟨.idx r.kind, (choose cmp b op.cur ⟨none, [], op.cur, -1⟩ op.next).val, op.lines,
            op.cur - lastNl (b.take op.cur), false⟩, r', loc, ?_, h1, h2, h3⟩
          rw [toks, List.filter_append]
          exact congrArg₂ (· ++ ·) (check_toks _ _ _) (by simp [isTok])

theorem loop_least {cmp : Cmp} {error b : Bytes} (Q : Nat × Nat → Prop) : ∀ n (op op' : Op) ss, WF b.length op.next →
    (∀ e ∈ op.next, ∀ loc, e.2 = some loc → Q loc) → loopS cmp error b n op = .ok (op', ss) →
    (toks op'.lxs).length ≤ (toks op.lxs).length + ss.length + 1 ∧
      ∀ x ∈ toks op'.lxs, x ∈ toks op.lxs ∨ ∃ loc, (Q loc ∨ ∃ s ∈ ss, s.found = some loc) ∧ x.val = slice b loc.1 loc.2
  | 0, _, _, _, _, _, h => by cases h
  | n + 1, op, op', ss, w, hQ, h => by
    rw [loopS] at h
    obtain ⟨op1, h1, h2⟩ := Out.bind_eq_ok.1 h
    obtain ⟨g1, g2⟩ := body_adv w h1
    have hb := body_toks h1
    have hmem : ∀ x ∈ toks op1.lxs, x ∈ toks op.lxs ∨ ∃ loc, Q loc ∧ x.val = slice b loc.1 loc.2 := by
      intro x hx
      rcases hb with hb | ⟨y, r, loc, hb, hm, -, hv⟩
      · exact .inl (hb ▸ hx)
      · rw [hb, List.mem_append, List.mem_singleton] at hx
        rcases hx with hx | rfl
        · exact .inl hx
        · exact .inr ⟨loc, hQ _ hm loc rfl, hv⟩
    split at h2
    · cases h2
      refine ⟨?_, fun x hx => ?_⟩
      · rcases hb with hb | ⟨y, r, loc, hb, -⟩ <;> rw [hb] <;> simp
      · rcases hmem x hx with h | ⟨loc, h, hv⟩
        · exact .inl h
        · exact .inr ⟨loc, .inl h, hv⟩
    · rename_i hlt
      simp only at h2
      obtain ⟨⟨op2, ss2⟩, h3, h4⟩ := Out.bind_eq_ok.1 h2
      cases h4
      have hc : op1.cur ≤ b.length := by omega
      obtain ⟨-, -, -, u4, -⟩ := update_sums b hc op1.next (g2 ▸ w)
      have e1 : (updateNextS b op1).2 = op1.next.flatMap fun e => (refindS b op1.cur e).2 := by
        simp [updateNextS, List.flatMap_map]
      have e2 : (updateNextS b op1).1.next = op1.next.map fun e => (refindS b op1.cur e).1 := by
        simp [updateNextS, List.map_map, Function.comp_def]
      have e3 : (updateNextS b op1).1.lxs = op1.lxs := rfl
      obtain ⟨i1, i2⟩ := loop_least (fun loc => Q loc ∨ ∃ s ∈ (updateNextS b op1).2, s.found = some loc) n _ _ _
        (by rw [e2]; exact u4) (by
          intro e he loc hl
          rw [e2] at he
          obtain ⟨e0, he0, rfl⟩ := List.mem_map.1 he
          have hs : ∀ s ∈ (refindS b op1.cur e0).2, s ∈ (updateNextS b op1).2 := fun s hs => by
            rw [e1]; exact List.mem_flatMap.2 ⟨e0, he0, hs⟩
          rw [g2] at he0
          unfold refindS at hl hs
          split at hl
          · exact .inl (hQ _ he0 _ hl)
          · rename_i loc0 hl0
            simp only [hl0] at hs
            split at hl
            · rename_i hle
              simp only [if_pos hle] at hs
              exact .inr ⟨_, hs _ (List.mem_singleton.2 rfl), hl⟩
            · exact .inl (hQ _ he0 _ hl)) h3
      rw [e3] at i1 i2
      dsimp only at i1 i2 ⊢
      refine ⟨?_, fun x hx => ?_⟩
      · rw [List.length_append]
        rcases hb with hb | ⟨y, r, loc, hb, hm, hl, -⟩
        · rw [hb] at i1
          omega
        · rw [hb, List.length_append, List.length_singleton] at i1
          have : 0 < (updateNextS b op1).2.length := by
            rw [e1]
            refine List.length_pos_of_mem (a := ⟨op1.cur, (r.re.find (b.drop op1.cur)).map fun l => (l.1 + op1.cur, l.2 + op1.cur)⟩)
              (List.mem_flatMap.2 ⟨(r, some loc), g2 ▸ hm, ?_⟩)
            simp only [refindS]
            rw [if_pos (by omega)]
            simp
          omega
      · rcases i2 x hx with h | ⟨loc, h, hv⟩
        · rcases hmem x h with h | ⟨loc, h, hv⟩
          · exact .inl h
          · exact .inr ⟨loc, .inl h, hv⟩
        · refine .inr ⟨loc, ?_, hv⟩
          rcases h with (h | ⟨s, hs, h⟩) | ⟨s, hs, h⟩
          · exact .inl h
          · exact .inr ⟨s, List.mem_append_left _ hs, h⟩
          · exact .inr ⟨s, List.mem_append_right _ hs, h⟩

theorem populate_found {b : Bytes} : ∀ (rs : List (Option Rule)) es ss, populateNextS b rs = .ok (es, ss) →
    ∀ e ∈ es, ∀ loc, e.2 = some loc → ∃ s ∈ ss, s.found = some loc
  | [], es, ss, h => by cases h; simp
  | none :: _, _, _, h => by cases h
  | some r :: rs, es, ss, h => by
    rw [populateNextS] at h
    obtain ⟨⟨es1, ss1⟩, h1, h2⟩ := Out.bind_eq_ok.1 h
    cases h2
    intro e he loc hl
    rcases List.mem_cons.1 he with rfl | he
    · exact ⟨_, List.mem_cons_self, hl⟩
    · obtain ⟨s, hs, h⟩ := populate_found rs _ _ h1 e he loc hl
      exact ⟨s, List.mem_cons_of_mem _ hs, h⟩

/-- **C96**, from below: each rule is searched for once, and once more for every token but the last; and the text of every
token was found by a search. -/
theorem C96_least (n : Nat) (l l' : Lexer) (b : Bytes) (lxs : List Lx) (ss : List Search) (h : lexS n l b = .ok ((lxs, l'), ss)) :
    l.rules.length + (toks lxs).length ≤ ss.length + 1 ∧
      ∀ x ∈ toks lxs, ∃ s ∈ ss, ∃ i j, s.found = some (i, j) ∧ x.val = slice b i j := by
  unfold lexS at h
  dsimp only at h
  obtain ⟨⟨es, ss0⟩, h1, h⟩ := Out.bind_eq_ok.1 h
  obtain ⟨⟨op, ss1⟩, h2, h⟩ := Out.bind_eq_ok.1 h
  cases h
  obtain ⟨-, g2, -, -, g5, -⟩ := populateS_sums _ _ _ h1
  obtain ⟨k1, k2⟩ := loop_least (fun loc => ∃ s ∈ ss0, s.found = some loc) _ _ _ _ g5 (populate_found _ _ _ h1) h2
  have hin : ∀ k v, toks (if k ≠ [] then [insertLx k v] else []) = [] := by
    intro k v
    split <;> simp [toks, isTok, insertLx]
  have ht : toks ((checkError l.error b op).lxs ++ if l.endKind ≠ [] then [insertLx l.endKind l.endVal] else []) = toks op.lxs := by
    have := hin l.endKind l.endVal
    unfold toks at this ⊢
    rw [List.filter_append, this, List.append_nil]
    exact check_toks _ _ _
  simp only [hin] at k1 k2
  rw [ht]
  simp only [List.length_append, List.length_nil] at k1 ⊢
  refine ⟨by omega, fun x hx => ?_⟩
  rcases k2 x hx with h | ⟨⟨i, j⟩, ⟨s, hs, h⟩ | ⟨s, hs, h⟩, hv⟩
  · cases h
  · exact ⟨s, List.mem_append_left _ hs, i, j, h, hv⟩
  · exact ⟨s, List.mem_append_right _ hs, i, j, h, hv⟩

/-- Two rules, three tokens, six searches. -/
example : (match lexS 5 two (xas 3) with
    | .ok r => some ((toks r.1.1).length, two.rules.length, r.2.length)
    | _ => none) = some (3, 2, 6) := by decide +kernel

/-- Three tokens of one rule and three searches: the bound is reached. -/
def one : Lexer := (add SimpleLexer.empty [49] (Verif.Props.SimpleLexer.ofMatch xaM (litM_bound _)) false).1

example : (match lexS 5 one (xas 3) with
    | .ok r => some ((toks r.1.1).length, one.rules.length, r.2.length)
    | _ => none) = some (3, 1, 3) := by decide +kernel

end Verif.Props.SimpleLexerLeast
