import Verif.Proofs.MathValue
import Verif.Proofs.GrammarText
import Verif.Proofs.Lit
import Verif.Props.Packrat
/-
The packrat parser on the lexemes of an expression, with the grammar of examples/parlexmath.
-/
namespace Verif.PMath
open Verif Verif.Spec Verif.Spec.Math Verif.Packrat Verif.SetSymbol

def nE : Str := "E".toList
def nP : Str := "P".toList
def nNum : Str := "number".toList
def nOp1 : Str := "op1".toList
def nOp2 : Str := "op2".toList
def nOpen : Str := "(".toList
def nClose : Str := ")".toList

def prodsE : List (List Str) := [[nE, nOp2, nE], [nE, nOp1, nE], [nNum], [nOp2, nNum], [nP]]
def prodsP : List (List Str) := [[nOpen, nE, nClose]]

/-- What the grammar is. -/
structure GOK (G : Grammar Str) : Prop where
  wf : G.WF
  order : G.order = [nE, nP]
  e : G.prods nE = some prodsE
  p : G.prods nP = some prodsP

theorem GOK.other {G} (h : GOK G) {x : Str} (h1 : x ≠ nE) (h2 : x ≠ nP) : G.prods x = none := by
  cases e : G.prods x with
  | none => rfl
  | some ps =>
    have := (h.wf x).1 (by rw [e]; rfl)
    rw [h.order] at this
    simp at this
    rcases this with h | h <;> contradiction

set_option maxRecDepth 10000 in
theorem grmr_dec : (match grmr with | .ok G => decide (G.order = [nE, nP]) && decide (G.prods nE = some prodsE) && decide (G.prods nP = some prodsP) | _ => false) = true := by
  unfold grmr grammarText
  simp only [litToList]
  decide +kernel

theorem grmr_ok : ∃ G, grmr = .ok G ∧ GOK G := by
  have h := grmr_dec
  rcases Verif.Grammar.new_spec grammarText with ⟨_, h'⟩ | ⟨g, r, h1, _, h2⟩
  · unfold grmr at h
    rw [h'] at h
    cases h
  · have e : grmr = .ok (Verif.Grammar.view g) := by unfold grmr; rw [h1]
    rw [e] at h
    simp only [Bool.and_eq_true, decide_eq_true_eq] at h
    exact ⟨_, e, by rw [Verif.Grammar.view_rep h2]; exact Verif.Grammar.record_wf r, h.1.1, h.1.2, h.2⟩

/-! ### The set of symbols -/

def gsyms : List Str := nE :: (prodsE.flatten ++ (nP :: prodsP.flatten))
def names : List Str := [nE, nOp2, nOp1, nNum, nP, nOpen, nClose]
def set0 : SymSet Str := (castSyms new gsyms).1

theorem set0_inv : Inv set0 := castSyms_inv inv_new _

theorem set0_names : set0.symb2str = names := by decide +kernel

theorem castSyms_present {s : SymSet Str} (hs : Inv s) : ∀ p : List Str, (∀ x ∈ p, x ∈ s.symb2str) → (castSyms s p).1 = s
  | [], _ => rfl
  | x :: p, h => by
    simp only [castSyms]
    rw [str_present hs (h x (by simp))]
    exact castSyms_present hs p fun y hy => h y (by simp [hy])

theorem tok_name (t : Tok) : (tokKv t).1 ∈ names := by cases t <;> simp [tokKv, names, nE, nOp2, nOp1, nNum, nP, nOpen, nClose]

theorem tok_code (t : Tok) : symIdx set0 (tokKv t).1 = code t := by
  cases t with
  | num s => exact (by decide +kernel : symIdx set0 "number".toList = 3)
  | _ => decide +kernel

theorem set0_idx : symIdx set0 nE = 0 ∧ symIdx set0 nP = 4 ∧ symIdx set0 nNum = 3 ∧ symIdx set0 nOp1 = 2 ∧ symIdx set0 nOp2 = 1 ∧
    symIdx set0 nOpen = 5 ∧ symIdx set0 nClose = 6 := by decide +kernel

theorem load {G} (h : GOK G) {ls : List (Lexeme Str Str)} (hl : ∀ l ∈ ls, l.kind ∈ names) : loadSet G ls = .ok set0 := by
  have e : grammarSyms G G.order = .ok gsyms := by
    rw [h.order]
    simp [grammarSyms, h.e, h.p, gsyms]
  rw [loadSet, e, Out.bind_ok]
  show Out.ok (castSyms set0 _).1 = _
  rw [castSyms_present set0_inv]
  intro x hx
  obtain ⟨l, hl', rfl⟩ := List.mem_map.1 hx
  rw [set0_names]
  exact hl l hl'

theorem idx_prods {G} (h : GOK G) (i : Nat) : idxProds G set0 i = mprods i := by
  have ne : ∀ x ∈ [nOp2, nOp1, nNum, nOpen, nClose], x ≠ nE ∧ x ≠ nP := by decide +kernel
  obtain ⟨e0, e4, e3, e2, e1, e5, e6⟩ := set0_idx
  unfold idxProds
  rw [set0_names]
  match i with
  | 0 => simp [names, h.e, prodsE, mprods, e0, e1, e2, e3, e4]
  | 1 => simp [names, h.other (ne nOp2 (by simp)).1 (ne nOp2 (by simp)).2, mprods]
  | 2 => simp [names, h.other (ne nOp1 (by simp)).1 (ne nOp1 (by simp)).2, mprods]
  | 3 => simp [names, h.other (ne nNum (by simp)).1 (ne nNum (by simp)).2, mprods]
  | 4 => simp [names, h.p, prodsP, mprods, e0, e5, e6]
  | 5 => simp [names, h.other (ne nOpen (by simp)).1 (ne nOpen (by simp)).2, mprods]
  | 6 => simp [names, h.other (ne nClose (by simp)).1 (ne nClose (by simp)).2, mprods]
  | i + 7 => simp [names, mprods]

theorem env_ok {G} (h : GOK G) {ls : List (Lexeme Str Str)} {ts : List Tok}
    (hls : ls.map (fun l => (l.kind, l.val)) = ts.map tokKv) :
    MEnv (mkEnv G set0 ls) ∧ (mkEnv G set0 ls).lex = ts.map code := by
  have hlex : (mkEnv G set0 ls).lex = ts.map code := by
    have := congrArg (List.map (fun x : Str × Str => symIdx set0 x.1)) hls
    rw [List.map_map, List.map_map] at this
    refine Eq.trans this ?_
    exact List.map_congr_left fun t _ => tok_code t
  refine ⟨⟨funext (idx_prods h), fun i => ?_, fun k hk => ?_⟩, hlex⟩
  · show decide (i ∈ G.order.map (symIdx set0)) = _
    rw [h.order]
    simp only [List.map_cons, List.map_nil, set0_idx.1, set0_idx.2.1]
    by_cases h0 : i = 0
    · subst h0; rfl
    · by_cases h4 : i = 4
      · subst h4; rfl
      · simp [h0, h4, mprods]
  · rw [hlex] at hk
    obtain ⟨t, _, rfl⟩ := List.mem_map.1 hk
    cases t <;> rfl

/-! ### Naming -/

mutual
theorem nameTree_eq {s : SymSet Str} (x0 : Str) : ∀ (t : PN Nat Str) {t'}, nameTree s t = .ok t' → t' = mapPN (nm s x0) t
  | .node l ks, t', h => by
    rw [nameTree] at h
    split at h
    · cases h
    · rename_i x hx
      obtain ⟨ts, h1, h2⟩ := Out.bind_eq_ok.1 h
      cases h2
      rw [nameTrees_eq x0 ks h1, mapPN, mapLx, nm, hx]
      rfl
theorem nameTrees_eq {s : SymSet Str} (x0 : Str) : ∀ (ks : List (PN Nat Str)) {ts}, nameTrees s ks = .ok ts → ts = mapPNs (nm s x0) ks
  | [], ts, h => by rw [nameTrees] at h; cases h; rfl
  | t :: ks, ts, h => by
    rw [nameTrees] at h
    obtain ⟨t', h1, h⟩ := Out.bind_eq_ok.1 h
    obtain ⟨ts', h2, h⟩ := Out.bind_eq_ok.1 h
    cases h
    rw [nameTree_eq x0 t h1, nameTrees_eq x0 ks h2, mapPNs]
end

/-! ### Parsing -/

theorem parse_not {env : Env} (me : MEnv env) {V : Type} {ev : V} {lxms : List (Lexeme Nat V)} (hl : lxms.map (·.kind) = env.lex)
    {fuel} (hf : bound env {0, 4} ≤ fuel) (ht : parseIdx ev env 0 lxms fuel = .ok none) : ¬ Ex env.lex 0 lxms.length := by
  intro hx
  obtain ⟨st0, st, P, e0, e1, inv, hF, hq⟩ := engine_fin me hf
  obtain ⟨d, hd⟩ := Option.isSome_iff_exists.1 (hF.all _ _ hq hx)
  unfold parseIdx at ht
  rw [e0, Out.bind_ok, e1, Out.bind_ok] at ht
  dsimp only at ht
  rw [inv.wf.get hd] at ht
  rw [if_neg (by rw [inv.wf.key _ _ hd]; simp)] at ht
  obtain ⟨t', _, ht⟩ := Out.bind_eq_ok.1 ht
  cases ht

/-- Lexemes of an expression are parsed to its tree, other lexemes are not parsed. -/
theorem parse_lexemes {G} (h : GOK G) {ls : List (Lexeme Str Str)} {ts : List Tok} (hne : ts ≠ [])
    (hls : ls.map (fun l => (l.kind, l.val)) = ts.map tokKv) :
    (∃ t f, Out.Returns (parse [] G ls) (some t) ∧ f 0 = nE ∧ f 4 = nP ∧ TrE (ts.map code) f ls 0 ts.length t) ∨
    (Out.Returns (parse [] G ls) none ∧ ¬ Ex (ts.map code) 0 ts.length) := by
  have hlen : ls.length = ts.length := by simpa using congrArg List.length hls
  have hk : ∀ l ∈ ls, ∃ t, l.kind = (tokKv t).1 := by
    intro l hl
    have : (l.kind, l.val) ∈ ts.map tokKv := by rw [← hls]; exact List.mem_map.2 ⟨l, hl, rfl⟩
    obtain ⟨t, _, e⟩ := List.mem_map.1 this
    exact ⟨t, (congrArg Prod.fst e).symm⟩
  have hn : ∀ l ∈ ls, l.kind ∈ names := fun l hl => by obtain ⟨t, e⟩ := hk l hl; rw [e]; exact tok_name t
  obtain ⟨r, N, hN⟩ := Verif.Props.Packrat.C18_terminates [] G h.wf ls (fun l hl => by
    obtain ⟨t, e⟩ := hk l hl
    show G.prods l.kind = none
    rw [e]
    have := (idx_prods h (code t))
    unfold idxProds at this
    rw [← tok_code, symIdx_get set0_inv (by rw [set0_names]; exact tok_name t)] at this
    simp only at this
    have e2 : mprods (symIdx set0 (tokKv t).1) = none := by rw [tok_code]; cases t <;> rfl
    rw [e2, Option.map_eq_none_iff] at this
    exact this)
  obtain ⟨me, hlex⟩ := env_ok h hls
  let lx : List (Lexeme Nat Str) := ls.map fun l => ⟨symIdx set0 l.kind, l.val, l.line, l.col⟩
  have hlx : lx.map (·.kind) = (mkEnv G set0 ls).lex := by simp [lx, mkEnv]
  have hback : lx.map (mapLx (nm set0 nE)) = ls := by
    simp only [lx, List.map_map]
    conv => rhs; rw [← List.map_id ls]
    refine List.map_congr_left fun l hl => ?_
    simp [mapLx, nm_symIdx set0_inv (by rw [set0_names]; exact hn l hl)]
  have hlen' : lx.length = ts.length := by simp [lx, hlen]
  have hne' : lx ≠ [] := by
    intro e
    rw [e] at hlen'
    exact hne (List.length_eq_zero_iff.1 hlen'.symm)
  have hp := hN (max N (bound (mkEnv G set0 ls) {0, 4})) (by omega)
  rw [parse, h.order] at hp
  dsimp only at hp
  rw [load h hn, Out.bind_ok, set0_idx.1] at hp
  obtain ⟨o, h1, h2⟩ := Out.bind_eq_ok.1 hp
  cases o with
  | none =>
    cases h2
    right
    refine ⟨⟨N, hN⟩, ?_⟩
    have := parse_not me hlx (by omega) h1
    rwa [hlex, hlen'] at this
  | some t =>
    left
    obtain ⟨t', h3, h4⟩ := Out.bind_eq_ok.1 h2
    cases h4
    refine ⟨t', nm set0 nE, ⟨N, hN⟩, ?_, ?_, ?_⟩
    · simp [nm, set0_names, names]
    · simp [nm, set0_names, names]
    · have := (parse_tree me hlx hne' (by omega) h1).map (nm set0 nE)
      rw [hlex, hlen', hback, ← nameTree_eq nE t h3] at this
      exact this

theorem rule_ne {G} (h : GOK G) {A k p} (hr : G.Rule A k p) : p ≠ [] := by
  obtain ⟨ps, h1, h2⟩ := hr
  have hm := List.mem_of_getElem? h2
  by_cases hE : A = nE
  · subst hE
    rw [h.e] at h1
    cases h1
    rintro rfl
    simp [prodsE] at hm
  · by_cases hP : A = nP
    · subst hP
      rw [h.p] at h1
      cases h1
      rintro rfl
      simp [prodsP] at hm
    · rw [h.other hE hP] at h1; cases h1

theorem valid_fringe {G} (h : GOK G) {t : PN Str Str} (hv : t.Valid G) : t.fringe (fun s => (G.prods s).isNone) ≠ [] := by
  induction hv with
  | @leaf l ht =>
    have ht : G.prods l.kind = none := ht
    simp [PN.fringe, ht]
  | @inner l ks k p hr hk _ ih =>
    have ht : ¬ ((G.prods l.kind).isNone = true) := by simpa [Grammar.Term] using not_term hr
    rw [PN.fringe, if_neg ht]
    have := rule_ne h hr
    cases ks with
    | nil => exact absurd hk.symm this
    | cons t ks =>
      rw [PN.fringes]
      intro e
      exact ih t (by simp) (List.append_eq_nil_iff.1 e).1

/-- No lexemes at all: a tree without children. -/
theorem parse_empty {G} (h : GOK G) : Out.Returns (parse [] G ([] : List (Lexeme Str Str))) (some (.node ⟨nE, [], -1, 0⟩ [])) := by
  rcases Verif.Props.Packrat.parse_spec ([] : Str) G h.wf [] (by simp) with ⟨t, _, h2, _⟩ | ⟨_, ⟨h2, _⟩ | ⟨_, S, h2, h3⟩⟩
  · exact absurd h2.2.2 (valid_fringe h h2.2.1)
  · rw [h.order] at h2; simp at h2
  · rw [h.order] at h2
    cases h2
    exact h3

end Verif.PMath
