import Verif.Proofs.PackratCount
import Verif.Props.Packrat
import Mathlib.Algebra.BigOperators.Ring.Finset
import Mathlib.Tactic.Ring
/-
The rounds of the packrat parser (C89).

`parseC ev g ls fuel` is `parse ev g ls fuel` together with the number of rounds of the main loop, each of which extends one partly
read production by one symbol. The specification is `Rounds`, a polynomial.
-/
namespace Verif.Props.PackratCount
open Verif.Spec Verif.Spec.Grammar Verif.Packrat Verif.SetSymbol

variable {α V : Type} [DecidableEq α]

/-- For each production, the number of ways in which a first part of it, not empty, can be laid on `n` lexemes: `j + 1` symbols have
`j + 2` ends. -/
def Rounds (g : Grammar α) (n : Nat) : Nat :=
  (g.order.map fun A => (((g.prods A).getD []).map fun p => ((List.range p.length).map fun j => (n + 1) ^ (j + 2)).sum).sum).sum

/-- C89: counting changes nothing. -/
theorem C89_same (ev : V) (g : Grammar α) (ls : List (Lexeme α V)) (n : Nat) : forget (parseC ev g ls n) = parse ev g ls n :=
  parseC_forget ev g ls n

theorem envOK (g : Grammar α) (hg : g.WF) {s : SymSet α} (ls : List (Lexeme α V)) (hl : ∀ l ∈ ls, g.Term l.kind) (hs : SetOK g s)
    (hls : ∀ l ∈ ls, l.kind ∈ s.symb2str) : EnvOK (mkEnv g s ls) (g.order.map (symIdx s)).toFinset := by
  have key : ∀ i, (idxProds g s i).isSome ↔ i ∈ g.order.map (symIdx s) := by
    intro i
    rw [List.mem_map]
    constructor
    · intro hi
      unfold idxProds at hi
      split at hi
      · cases hi
      · rename_i x hx
        refine ⟨x, (hg x).1 ?_, symIdx_unique hs.inv hx⟩
        rwa [Option.isSome_map] at hi
    · rintro ⟨x, hx, rfl⟩
      rw [idxProds_symIdx hs.inv (hs.order x hx), Option.isSome_map]
      exact (hg x).2 hx
  refine ⟨?_, ?_, ?_⟩
  · intro i
    show decide (i ∈ g.order.map (symIdx s)) = (idxProds g s i).isSome
    rw [Bool.eq_iff_iff, decide_eq_true_iff, key]
  · intro i hi
    simpa using (key i).1 hi
  · intro k hk
    obtain ⟨l, hlm, rfl⟩ := List.mem_map.1 hk
    show idxProds g s (symIdx s l.kind) = none
    have ht : g.prods l.kind = none := hl l hlm
    rw [idxProds_symIdx hs.inv (hls l hlm), ht]; rfl

theorem W_eq (n : Nat) : ∀ r, (n + 1) * ((n + 1) * W n r) = ((List.range r).map fun j => (n + 1) ^ (j + 2)).sum
  | 0 => by simp [W]
  | r + 1 => by
    have ih := W_eq n r
    rw [List.range_succ_eq_map]
    simp only [W, List.map_cons, List.sum_cons, List.map_map, Function.comp_def]
    have : ((List.range r).map fun j => (n + 1) ^ (Nat.succ j + 2)).sum = (n + 1) * ((List.range r).map fun j => (n + 1) ^ (j + 2)).sum := by
      rw [← List.sum_map_mul_left]
      refine congrArg List.sum (List.map_congr_left fun j _ => ?_)
      rw [show Nat.succ j + 2 = (j + 2) + 1 from by omega, Nat.pow_succ, Nat.mul_comm]
    rw [this, ← ih]
    ring

theorem sum_toFinset_le (f : Nat → Nat) : ∀ xs : List Nat, ∑ i ∈ xs.toFinset, f i ≤ (xs.map f).sum
  | [] => by simp
  | x :: xs => by
    have ih := sum_toFinset_le f xs
    rw [List.toFinset_cons, List.map_cons, List.sum_cons]
    by_cases hx : x ∈ xs.toFinset
    · rw [Finset.insert_eq_of_mem hx]; omega
    · rw [Finset.sum_insert hx]; omega

theorem phi_init (g : Grammar α) {s : SymSet α} (ls : List (Lexeme α V)) (hs : SetOK g s) :
    phi (mkEnv g s ls) (g.order.map (symIdx s)).toFinset St.init ≤ Rounds g ls.length := by
  have hlen : (mkEnv g s ls).lex.length = ls.length := by simp [mkEnv]
  have h1 : phi (mkEnv g s ls) (g.order.map (symIdx s)).toFinset St.init =
      ∑ i ∈ (g.order.map (symIdx s)).toFinset, (ls.length + 1) * prodsCost (mkEnv g s ls) i := by
    simp [phi, phiStack, phiPart, phiQ, St.init, allM, Finset.sum_product, Packrat.mk, hlen]
  rw [h1]
  refine Nat.le_trans (sum_toFinset_le _ _) ?_
  unfold Rounds
  rw [List.map_map]
  refine le_of_eq (congrArg List.sum (List.map_congr_left fun A hA => ?_))
  simp only [Function.comp, prodsCost, hlen]
  show (ls.length + 1) * (((idxProds g s (symIdx s A)).getD []).map _).sum = _
  rw [idxProds_symIdx hs.inv (hs.order A hA)]
  cases g.prods A with
  | none => simp
  | some ps =>
    simp only [Option.map_some, Option.getD_some, List.map_map]
    rw [← List.sum_map_mul_left]
    refine congrArg List.sum (List.map_congr_left fun p _ => ?_)
    simp only [Function.comp, List.length_map]
    exact W_eq ls.length p.length

/-- What a parse that returns has done. -/
theorem parseC_inv (ev : V) (g : Grammar α) (hg : g.WF) (ls : List (Lexeme α V)) (hl : ∀ l ∈ ls, g.Term l.kind) {S rest}
    (ho : g.order = S :: rest) {n r c} (h : parseC ev g ls n = .ok (r, c)) :
    ∃ s, SetOK g s ∧ (∀ l ∈ ls, l.kind ∈ s.symb2str) ∧ EnvOK (mkEnv g s ls) (g.order.map (symIdx s)).toFinset ∧
      ∃ (st : St) (P : Partial × Key → Prop) (L : List (Partial × Key)), LInv (mkEnv g s ls) st P ∧ st.stack = [] ∧ st.queued ⟨symIdx s S, 0⟩ = true ∧
        c ≤ phi (mkEnv g s ls) (g.order.map (symIdx s)).toFinset St.init ∧ (∀ v, P v ↔ v ∈ L) ∧ L.length = c := by
  obtain ⟨s, es, hs, hls, _⟩ := loadSet_ok g hg ls
  have hok := envOK g hg ls hl hs hls
  let B := bound (mkEnv g s ls) (g.order.map (symIdx s)).toFinset
  have h := (parseC_mono ev g ls n (max n B) (by omega)).ok h
  obtain ⟨st0, st, P, c', L, e0, e1, inv, hst, hq, hc, hL, hlen⟩ := engineC hok (symIdx s S) (fuel := max n B) (by omega)
  refine ⟨s, hs, hls, hok, st, P, L, inv, hst, hq, ?_⟩
  have : c = c' := by
    simp only [parseC, ho, es, Out.bind_ok, parseIdxC, e0, e1] at h
    obtain ⟨⟨r', c2⟩, e2, h⟩ := Out.bind_eq_ok.1 h
    have hc2 : c2 = c' := by
      split at e2
      · cases e2; rfl
      · obtain ⟨t, _, e2⟩ := Out.bind_eq_ok.1 e2
        cases e2; rfl
    cases r' with
    | none => cases h; exact hc2
    | some t =>
      obtain ⟨t', _, h⟩ := Out.bind_eq_ok.1 h
      cases h; exact hc2
  subst this
  exact ⟨hc, hL, hlen⟩

/-- C89: the main loop has at most `Rounds g n` rounds on `n` lexemes, a polynomial in `n`. -/
theorem C89_polynomial (ev : V) (g : Grammar α) (hg : g.WF) (ls : List (Lexeme α V)) (hl : ∀ l ∈ ls, g.Term l.kind) {n r c}
    (h : parseC ev g ls n = .ok (r, c)) : c ≤ Rounds g ls.length := by
  cases ho : g.order with
  | nil => simp only [parseC, ho] at h; cases h; omega
  | cons S rest =>
    obtain ⟨s, hs, _, _, st, P, L, _, _, _, hc, _⟩ := parseC_inv ev g hg ls hl ho h
    exact Nat.le_trans hc (phi_init g ls hs)

/-- C89: Parse returns, after no more rounds than that. -/
theorem C89_total (ev : V) (g : Grammar α) (hg : g.WF) (ls : List (Lexeme α V)) (hl : ∀ l ∈ ls, g.Term l.kind) :
    ∃ r c, Out.Returns (parseC ev g ls) (r, c) ∧ Out.Returns (parse ev g ls) r ∧ c ≤ Rounds g ls.length := by
  obtain ⟨r, N, hN⟩ := Verif.Props.Packrat.C18_terminates ev g hg ls hl
  have := C89_same ev g ls N
  rw [hN N (Nat.le_refl _)] at this
  obtain ⟨⟨r', c⟩, e, e'⟩ := Out.bind_eq_ok.1 this
  cases e'
  exact ⟨_, c, Out.returns_of (parseC_mono ev g ls) e, ⟨N, hN⟩, C89_polynomial ev g hg ls hl e⟩

/-! ### The degree depends on the grammar -/

/-- `S → A A … A` with `k + 1` symbols, `A → a A | ε`; `S` is 0, `A` is 1, `a` is 2. -/
def gk (k : Nat) : Grammar Nat where
  order := [0, 1]
  prods := fun x => if x = 0 then some [List.replicate (k + 1) 1] else if x = 1 then some [[2, 1], []] else none

/-- Lexemes `a`. -/
def as (n : Nat) : List (Lexeme Nat Nat) := List.replicate n ⟨2, 0, 0, 0⟩

theorem gk_wf (k : Nat) : (gk k).WF := by
  intro x
  simp only [gk]
  by_cases h1 : x = 0
  · simp [h1]
  · by_cases h2 : x = 1
    · simp [h2]
    · simp [h1, h2]

theorem as_term (k n : Nat) : ∀ l ∈ as n, (gk k).Term l.kind := by
  intro l hl
  rw [List.eq_of_mem_replicate hl]
  rfl

/-- C89: with `k + 1` symbols in a production there can be `m ^ (k + 1)` rounds for `(k + 1) * m` lexemes. -/
theorem C89_degree (k m : Nat) {n r c} (h : parseC 0 (gk k) (as ((k + 1) * m)) n = .ok (r, c)) : m ^ (k + 1) ≤ c := by
  obtain ⟨s, hs, hls, hok, st, P, L, inv, hst, hq, _, hL, hlen⟩ := parseC_inv 0 (gk k) (gk_wf k) (as ((k + 1) * m)) (as_term k _) (S := 0)
    (rest := [1]) rfl h
  rw [← hlen]
  have hlex : (mkEnv (gk k) s (as ((k + 1) * m))).lex = List.replicate ((k + 1) * m) (symIdx s 2) := by
    simp [mkEnv, as]
  have r0 : (gk k).Rule 0 0 (List.replicate (k + 1) 1) := ⟨_, rfl, rfl⟩
  have r1 : (gk k).Rule 1 0 [2, 1] := ⟨_, rfl, rfl⟩
  have r2 : (gk k).Rule 1 1 [] := ⟨_, rfl, rfl⟩
  have hr := rule_up (o := []) hs (gk_wf k) r0
  rw [List.map_replicate] at hr
  have t2 : (mkEnv (gk k) s (as ((k + 1) * m))).gram.Term (symIdx s 2) := by
    show idxProds (gk k) s (symIdx s 2) = none
    have : (2 : Nat) ∈ s.symb2str := hs.syms 1 0 _ r1 2 (by simp)
    rw [idxProds_symIdx hs.inv this]
    rfl
  refine many hok hr ?_ (by rw [hlex]; simp) inv hst hq hL
  intro i j hij hj
  rw [hlex, List.length_replicate] at hj
  obtain ⟨d, rfl⟩ : ∃ d, j = i + d := ⟨j - i, by omega⟩
  clear hij
  induction d generalizing i with
  | zero => exact .nonterm (rule_up (o := []) hs (gk_wf k) r2) .nil .nil
  | succ d ih =>
    refine .nonterm (rule_up (o := []) hs (gk_wf k) r1) (.term t2 ?_ ?_) .nil
    · rw [hlex, List.getElem?_replicate, if_pos (by omega)]
    · have := ih (i + 1) (by omega)
      rwa [show i + 1 + d = i + (d + 1) from by omega] at this

/-- C89: so no degree is enough for all grammars, not even with a factor for each grammar. -/
theorem C89_one_degree_refuted : ¬ ∃ d, ∀ g : Grammar Nat, g.WF → ∃ C, ∀ ls : List (Lexeme Nat Nat), (∀ l ∈ ls, g.Term l.kind) →
    ∀ n r c, parseC 0 g ls n = .ok (r, c) → c ≤ C * (ls.length + 1) ^ d := by
  rintro ⟨d, h⟩
  obtain ⟨C, h⟩ := h (gk d) (gk_wf d)
  let m := C * (d + 2) ^ d + 1
  obtain ⟨r, c, ⟨N, hN⟩, _⟩ := C89_total 0 (gk d) (gk_wf d) (as ((d + 1) * m)) (as_term d _)
  have e := hN N (Nat.le_refl _)
  have h1 := C89_degree d m e
  have h2 := h _ (as_term d _) _ _ _ e
  have h3 : (as ((d + 1) * m)).length + 1 ≤ (d + 2) * m := by
    simp only [as, List.length_replicate]
    have : (d + 2) * m = (d + 1) * m + m := by ring
    omega
  have h4 : C * ((as ((d + 1) * m)).length + 1) ^ d ≤ C * ((d + 2) * m) ^ d := Nat.mul_le_mul_left _ (Nat.pow_le_pow_left h3 d)
  rw [Nat.mul_pow, ← Nat.mul_assoc] at h4
  have h5 : m ^ (d + 1) ≤ C * (d + 2) ^ d * m ^ d := by omega
  rw [Nat.pow_succ, Nat.mul_comm] at h5
  have hpos : 0 < m ^ d := Nat.pow_pos (by omega)
  have := Nat.le_of_mul_le_mul_right h5 hpos
  omega

/-- The number of rounds, if Parse returns a tree. -/
def rounds (k n : Nat) : Option Nat :=
  match parseC 0 (gk k) (as n) 200 with
  | .ok (some _, c) => some c
  | _ => none

/-- For three lexemes and productions of one to four symbols; the bound for three symbols. -/
theorem C89_said : (rounds 0 3, rounds 1 3, rounds 2 3, rounds 3 3, Rounds (gk 2) 3) = (some 13, some 23, some 43, some 78, 416) := by
  decide +kernel

end Verif.Props.PackratCount
