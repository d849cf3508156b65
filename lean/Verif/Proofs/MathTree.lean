import Verif.Proofs.MathVal
import Verif.Proofs.Packrat.Tree
import Verif.Proofs.Packrat.Lift
/-
The tree that the packrat engine returns for the grammar of examples/parlexmath.
-/
namespace Verif.PMath
open Verif Verif.Packrat Verif.Spec Verif.Spec.Grammar

/-- No reading of the expression is better than the one that splits it at `q`, where operator `i` is. -/
def BestAt (lex : List Nat) (s e i q : Nat) : Prop :=
  ∀ q' j, j ≤ 1 → Ex lex s q' → lex[q']? = some (j + 1) → Ex lex (q' + 1) e → i < j ∨ (i = j ∧ q' ≤ q)

/-- The tree of an expression: `lex` are the kinds of the lexemes by index, `ls` the lexemes, `f` gives the names of the
kinds. -/
inductive TrE {α V : Type} (lex : List Nat) (f : Nat → α) (ls : List (Lexeme α V)) : Nat → Nat → PN α V → Prop
  | num {b l a} : lex[b]? = some 3 → ls[b]? = some l → a.kind = f 0 → TrE lex f ls b (b + 1) (.node a [.node l []])
  | un {b l l' a} : lex[b]? = some 1 → lex[b + 1]? = some 3 → ls[b]? = some l → ls[b + 1]? = some l' → a.kind = f 0 →
      TrE lex f ls b (b + 2) (.node a [.node l [], .node l' []])
  | par {b e l l' a a' t} : lex[b]? = some 5 → lex[e]? = some 6 → ls[b]? = some l → ls[e]? = some l' → a.kind = f 0 →
      a'.kind = f 4 → TrE lex f ls (b + 1) e t → TrE lex f ls b (e + 1) (.node a [.node a' [.node l [], t, .node l' []]])
  | bin {s q e i l a t t'} : i ≤ 1 → lex[q]? = some (i + 1) → ls[q]? = some l → a.kind = f 0 → BestAt lex s e i q →
      TrE lex f ls s q t → TrE lex f ls (q + 1) e t' → TrE lex f ls s e (.node a [t, .node l [], t'])

theorem TrE.ex {α V : Type} {lex : List Nat} {f : Nat → α} {ls : List (Lexeme α V)} {s e t} (h : TrE lex f ls s e t) :
    Ex lex s e := by
  induction h with
  | num h _ _ => exact .one (.num h)
  | un h h' _ _ _ => exact .one (.un h h')
  | par h h' _ _ _ _ _ ih => exact .one (.par h ih h')
  | bin hi hl _ _ _ _ _ ih1 ih2 => exact ih1.app (op_of hi hl) ih2

theorem TrE.map {α V : Type} {lex : List Nat} {ls : List (Lexeme Nat V)} {s e t} (f : Nat → α) (h : TrE lex id ls s e t) :
    TrE lex f (ls.map (mapLx f)) s e (mapPN f t) := by
  have hl : ∀ {i : Nat} {l : Lexeme Nat V}, ls[i]? = some l → (ls.map (mapLx f))[i]? = some (mapLx f l) := by
    intro i l h; rw [List.getElem?_map, h]; rfl
  have ha : ∀ {a : Lexeme Nat V} {i : Nat}, a.kind = id i → (mapLx f a).kind = f i := by
    intro a i h; simp [mapLx, h]
  induction h with
  | num h h1 h2 => exact .num h (hl h1) (ha h2)
  | un h h' h1 h2 h3 => exact .un h h' (hl h1) (hl h2) (ha h3)
  | par h h' h1 h2 h3 h4 _ ih => exact .par h h' (hl h1) (hl h2) (ha h3) (ha h4) ih
  | bin hi h h1 h2 hb _ _ ih1 ih2 => exact .bin hi h (hl h1) (ha h2) hb ih1 ih2

variable {env : Env} {st : St} {V : Type}

theorem kids_one {rec : Def → Out (PN Nat V)} {get k ks} (h : kidsPN rec get [k] = .ok ks) :
    ∃ t, rec (get k) = .ok t ∧ ks = [t] := by
  unfold kidsPN at h
  obtain ⟨t, h1, h⟩ := Out.bind_eq_ok.1 h
  unfold kidsPN at h
  cases h
  exact ⟨t, h1, rfl⟩

theorem kids_two {rec : Def → Out (PN Nat V)} {get k k' ks} (h : kidsPN rec get [k, k'] = .ok ks) :
    ∃ t t', rec (get k) = .ok t ∧ rec (get k') = .ok t' ∧ ks = [t, t'] := by
  unfold kidsPN at h
  obtain ⟨t, h1, h⟩ := Out.bind_eq_ok.1 h
  obtain ⟨ts, h2, h⟩ := Out.bind_eq_ok.1 h
  obtain ⟨t', h3, rfl⟩ := kids_one h2
  cases h
  exact ⟨t, t', h1, h3, rfl⟩

theorem kids_three {rec : Def → Out (PN Nat V)} {get k k' k'' ks} (h : kidsPN rec get [k, k', k''] = .ok ks) :
    ∃ t t' t'', rec (get k) = .ok t ∧ rec (get k') = .ok t' ∧ rec (get k'') = .ok t'' ∧ ks = [t, t', t''] := by
  unfold kidsPN at h
  obtain ⟨t, h1, h⟩ := Out.bind_eq_ok.1 h
  obtain ⟨ts, h2, h⟩ := Out.bind_eq_ok.1 h
  obtain ⟨t', t'', h3, h4, rfl⟩ := kids_two h2
  cases h
  exact ⟨t, t', t'', h1, h3, h4, rfl⟩

/-- A leaf. -/
theorem leaf_tree (me : MEnv env) (w : WF env st) {ev : V} {lxms : List (Lexeme Nat V)} (hl : lxms.map (·.kind) = env.lex)
    {x b n t} (hx : ¬ NT x) (hm : (st.memo ⟨x, b, b + 1⟩).isSome = true)
    (ht : toPN ev lxms st.get n (st.get ⟨x, b, b + 1⟩) = .ok t) :
    ∃ l, lxms[b]? = some l ∧ env.lex[b]? = some x ∧ t = .node l [] := by
  have tok := wf_termOK me w
  have hlx := tok.lex x b hx hm
  obtain ⟨d, hd⟩ := Option.isSome_iff_exists.1 hm
  have hkey := w.key _ _ hd
  obtain ⟨_, hc⟩ := tok.leaf x b d hx hd
  rw [w.get hd] at ht
  cases n with
  | zero => cases ht
  | succ n =>
    unfold toPN at ht
    rw [hc] at ht
    unfold kidsPN at ht
    simp only [Out.bind_ok] at ht
    have hlx' := hlx
    rw [← hl, List.getElem?_map] at hlx'
    cases hll : lxms[b]? with
    | none => rw [hll] at hlx'; cases hlx'
    | some l =>
      rw [hll] at hlx'
      have hk : l.kind = x := by simpa using hlx'
      have : nodeLexeme ev lxms d ([] : List (PN Nat V)) = l := by
        simp [nodeLexeme, hkey, hll, hk]
      rw [this] at ht
      cases ht
      exact ⟨l, rfl, hlx, rfl⟩

theorem node_kind (me : MEnv env) {ev : V} {lxms : List (Lexeme Nat V)} (hl : lxms.map (·.kind) = env.lex) {d : Def}
    (hd : NT d.key.idx) (ks : List (PN Nat V)) : (nodeLexeme ev lxms d ks).kind = d.key.idx := by
  unfold nodeLexeme
  dsimp only
  cases hll : lxms[d.key.start]? with
  | none => cases ks <;> rfl
  | some l =>
    dsimp only
    have : l.kind ≠ d.key.idx := by
      intro h
      have : env.lex[d.key.start]? = some l.kind := by rw [← hl, List.getElem?_map, hll]; rfl
      rw [h] at this
      exact me.lexNT hd this
    rw [if_neg this]
    cases ks <;> rfl

theorem tree_of (me : MEnv env) (w : WF env st) (hF : Fin env.lex st) {ev : V} {lxms : List (Lexeme Nat V)}
    (hl : lxms.map (·.kind) = env.lex) : ∀ n s e t, Kn st s e →
      toPN ev lxms st.get n (st.get ⟨0, s, e⟩) = .ok t → TrE env.lex id lxms s e t := by
  intro n
  induction n using Nat.strongRecOn with
  | ind n ih =>
    intro s e t hk ht
    obtain ⟨d, hd⟩ := Option.isSome_iff_exists.1 hk
    have hkey := w.key _ _ hd
    have hex := hk.ex me w
    rw [w.get hd] at ht
    cases n with
    | zero => cases ht
    | succ n =>
      unfold toPN at ht
      obtain ⟨ks, h1, ht⟩ := Out.bind_eq_ok.1 ht
      cases ht
      have ha : (nodeLexeme ev lxms d ks).kind = id 0 := by
        rw [node_kind me hl (by rw [hkey]; exact .inl rfl), hkey]; rfl
      rcases hex.cases' with hat | hcm
      · -- which production it is
        have hp2 := entry_atm me w hd hat
        rcases w.ok _ _ hd with ⟨h2, _⟩ | ⟨pr, hr, hc, hs, _⟩
        · rw [hkey, me.prods] at h2; cases h2
        rw [hkey] at hr hc
        dsimp only at hr hc
        rcases rule_cases me hr with ⟨_, h⟩ | ⟨h, _⟩
        swap
        · cases h
        have hlen := hc.length
        rcases h with ⟨hp, rfl⟩ | ⟨hp, rfl⟩ | ⟨hp, rfl⟩ | ⟨hp, rfl⟩
        · omega
        · generalize hcs : d.children = cs at *
          match cs, hlen, hc, hs with
          | [⟨i, b, j⟩], _, hc, hs =>
            have hm := hs ⟨i, b, j⟩ (by simp)
            have hsym := memo_sym me w hm
            dsimp only at hsym
            cases hc with
            | cons hc =>
              cases hc
              obtain ⟨t, h2, rfl⟩ := kids_one h1
              have hsym : Sym env.lex 3 b j := hsym
              rw [sym_t (not_NT (by omega))] at hsym
              obtain ⟨hx, rfl⟩ := hsym
              obtain ⟨l, hl1, hl2, rfl⟩ := leaf_tree me w hl (not_NT (by decide)) hm h2
              exact .num hl2 hl1 ha
        · generalize hcs : d.children = cs at *
          match cs, hlen, hc, hs with
          | [⟨i, b, j⟩, ⟨i', b', j'⟩], _, hc, hs =>
            have hm := hs ⟨i, b, j⟩ (by simp)
            have hm' := hs ⟨i', b', j'⟩ (by simp)
            have hsym := memo_sym me w hm
            have hsym' := memo_sym me w hm'
            dsimp only at hsym hsym'
            cases hc with
            | cons hc =>
              cases hc with
              | cons hc =>
              cases hc
              obtain ⟨t, t', h2, h3, rfl⟩ := kids_two h1
              have hsym : Sym env.lex 1 b j := hsym
              have hsym' : Sym env.lex 3 j j' := hsym'
              rw [sym_t (not_NT (by omega))] at hsym hsym'
              obtain ⟨hx, rfl⟩ := hsym
              obtain ⟨hx', rfl⟩ := hsym'
              obtain ⟨l, hl1, hl2, rfl⟩ := leaf_tree me w hl (not_NT (by decide)) hm h2
              obtain ⟨l', hl1', hl2', rfl⟩ := leaf_tree me w hl (not_NT (by decide)) hm' h3
              exact .un hl2 hl2' hl1 hl1' ha
        · generalize hcs : d.children = cs at *
          match cs, hlen, hc, hs with
          | [⟨i, b, j⟩], _, hc, hs =>
            have hm := hs ⟨i, b, j⟩ (by simp)
            cases hc with
            | cons hc =>
              cases hc
              obtain ⟨t, h2, rfl⟩ := kids_one h1
              have hm : (st.memo ⟨4, b, j⟩).isSome = true := hm
              have h2 : toPN ev lxms st.get n (st.get ⟨4, b, j⟩) = .ok t := h2
              obtain ⟨d', hd'⟩ := Option.isSome_iff_exists.1 hm
              have hkey' := w.key _ _ hd'
              rw [w.get hd'] at h2
              cases n with
              | zero => cases h2
              | succ n =>
                unfold toPN at h2
                obtain ⟨ks', h3, h2⟩ := Out.bind_eq_ok.1 h2
                cases h2
                have ha' : (nodeLexeme ev lxms d' ks').kind = id 4 := by
                  rw [node_kind me hl (by rw [hkey']; exact .inr rfl), hkey']; rfl
                rcases w.ok _ _ hd' with ⟨h2, _⟩ | ⟨pr, hr', hc', hs', _⟩
                · rw [hkey', me.prods] at h2; cases h2
                rw [hkey'] at hr' hc'
                dsimp only at hr' hc'
                rcases rule_cases me hr' with ⟨h, _⟩ | ⟨_, _, rfl⟩
                · cases h
                have hlen' := hc'.length
                generalize hcs' : d'.children = cs' at *
                match cs', hlen', hc', hs' with
                | [⟨i1, b1, j1⟩, ⟨i2, b2, j2⟩, ⟨i3, b3, j3⟩], _, hc', hs' =>
                  have m1 := hs' ⟨i1, b1, j1⟩ (by simp)
                  have m2 := hs' ⟨i2, b2, j2⟩ (by simp)
                  have m3 := hs' ⟨i3, b3, j3⟩ (by simp)
                  have s1 := memo_sym me w m1
                  have s3 := memo_sym me w m3
                  dsimp only at s1 s3
                  cases hc' with
                  | cons hc' => cases hc' with
                    | cons hc' => cases hc' with
                      | cons hc' =>
                        cases hc'
                        obtain ⟨t1, t2, t3, g1, g2, g3, rfl⟩ := kids_three h3
                        have s1 : Sym env.lex 5 b1 j1 := s1
                        have s3 : Sym env.lex 6 j2 j3 := s3
                        rw [sym_t (not_NT (by omega))] at s1 s3
                        obtain ⟨x1, rfl⟩ := s1
                        obtain ⟨x3, rfl⟩ := s3
                        obtain ⟨l, hl1, hl2, rfl⟩ := leaf_tree me w hl (not_NT (by decide)) m1 g1
                        obtain ⟨l', hl1', hl2', rfl⟩ := leaf_tree me w hl (not_NT (by decide)) m3 g3
                        exact .par hl2 hl2' hl1 hl1' ha ha' (ih n (by omega) _ _ _ m2 g2)
      · obtain ⟨hp, q, hq, hch, hb⟩ := hF.best _ _ _ hd hcm
        have hs := (w.ok _ _ hd).kids
        rw [hch] at h1 hs
        obtain ⟨t1, t2, t3, g1, g2, g3, rfl⟩ := kids_three h1
        obtain ⟨l, hl1, hl2, rfl⟩ := leaf_tree me w hl (not_NT (by omega)) (hs ⟨d.priority + 1, q, q + 1⟩ (by simp)) g2
        exact .bin hp hq hl1 ha hb (ih n (by omega) _ _ _ (hs ⟨0, s, q⟩ (by simp)) g1)
          (ih n (by omega) _ _ _ (hs ⟨0, q + 1, e⟩ (by simp)) g3)

/-- What the engine returns for lexemes that are an expression. -/
theorem parse_tree (me : MEnv env) {ev : V} {lxms : List (Lexeme Nat V)} (hl : lxms.map (·.kind) = env.lex)
    (hne : lxms ≠ []) {fuel t} (hf : bound env {0, 4} ≤ fuel) (ht : parseIdx ev env 0 lxms fuel = .ok (some t)) :
    TrE env.lex id lxms 0 lxms.length t := by
  obtain ⟨st0, st, P, e0, e1, inv, hF, hq⟩ := engine_fin me hf
  unfold parseIdx at ht
  rw [e0, Out.bind_ok, e1, Out.bind_ok] at ht
  dsimp only at ht
  split at ht
  · cases ht
  · rename_i hstop
    obtain ⟨t', h1, ht⟩ := Out.bind_eq_ok.1 ht
    cases ht
    have hk : Kn st 0 lxms.length := by
      unfold Kn
      cases hm : st.memo ⟨0, 0, lxms.length⟩ with
      | some d => rfl
      | none =>
        exfalso
        apply hstop
        unfold St.get
        rw [hm]
        intro h
        apply hne
        exact List.length_eq_zero_iff.1 h.symm
    exact tree_of me inv.wf hF hl _ _ _ _ hk h1

end Verif.PMath
