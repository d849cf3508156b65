import Verif.Proofs.PackratTotal
import Verif.Props.PackratCount
/-
All calls of the packrat parser (C103).

`parseT ev g ls fuel` is `parse ev g ls fuel` together with the number of calls that Parse makes of the functions of packrat.go. The
specification is a polynomial.
-/
namespace Verif.Props.PackratTotal
open Verif.Spec Verif.Spec.Grammar Verif.Spec.PN Verif.Packrat Verif.SetSymbol Verif.Props.PackratCount Verif.Props.PackratWork Verif.Props.PackratShape

variable {α V : Type} [DecidableEq α]

/-- C103: counting changes nothing. -/
theorem C103_same (ev : V) (g : Grammar α) (ls : List (Lexeme α V)) (n : Nat) : forget (parseT ev g ls n) = parse ev g ls n :=
  parseT_forget ev g ls n

/-- The number of productions. -/
def count (g : Grammar α) : Nat := (g.order.map fun A => ((g.prods A).getD []).length).sum

/-- The number of symbols in the productions. -/
def size (g : Grammar α) : Nat := (g.order.map fun A => (((g.prods A).getD []).map List.length).sum).sum

theorem treeBound_mono {r N M n : Nat} (h : N ≤ M) : TreeBound r N n ≤ TreeBound r M n := by
  unfold TreeBound
  have h1 : (r + 1) ^ N ≤ (r + 1) ^ M := Nat.pow_le_pow_right (by omega) h
  have h2 : r * ((r + 1) ^ N + 1) ≤ r * ((r + 1) ^ M + 1) := Nat.mul_le_mul_left _ (by omega)
  have h3 : (1 + r * ((r + 1) ^ N + 1)) * N ≤ (1 + r * ((r + 1) ^ M + 1)) * M := Nat.mul_le_mul (by omega) h
  have := Nat.mul_le_mul_right (2 * n + 1) h3
  omega

theorem memoCost_mono {r N M n : Nat} (h : N ≤ M) : memoCost r N n ≤ memoCost r M n := by
  unfold memoCost
  have := Nat.mul_le_mul_left r (treeBound_mono (r := r) (n := n) h)
  omega

omit [DecidableEq α] in
mutual
theorem nameTree_nodes {s : SymSet α} : ∀ {t : PN Nat V} {t' : PN α V}, nameTree s t = .ok t' → nodes t' = nodes t
  | .node l ks, t', h => by
    unfold nameTree at h
    split at h
    · cases h
    · obtain ⟨ts, h1, h2⟩ := Out.bind_eq_ok.1 h
      cases h2
      rw [nodes, nodes, nameTrees_nodes h1]
theorem nameTrees_nodes {s : SymSet α} : ∀ {ts : List (PN Nat V)} {ts' : List (PN α V)}, nameTrees s ts = .ok ts' → nodess ts' = nodess ts
  | [], ts', h => by unfold nameTrees at h; cases h; rfl
  | t :: ts, ts', h => by
    unfold nameTrees at h
    obtain ⟨a, h1, h⟩ := Out.bind_eq_ok.1 h
    obtain ⟨as, h2, h⟩ := Out.bind_eq_ok.1 h
    cases h
    rw [nodess, nodess, nameTree_nodes h1, nameTrees_nodes h2]
end

/-- The bound: each round of the main loop and each production at each position costs what the entry of a reading into the memo costs, and
a few calls; the tree is built at the end. -/
def Calls (g : Grammar α) (r n : Nat) : Nat :=
  Rounds g n * (memoCost r g.order.length n + 6) + (n + 1) * (count g * (memoCost r g.order.length n + 3)) + 1 +
    TreeBound r g.order.length n

/-- C103: the calls, for productions of at most `r` symbols. -/
theorem C103_calls (ev : V) (g : Grammar α) (hg : g.WF) {r : Nat} (hr : ∀ A k p, g.Rule A k p → p.length ≤ r) (ls : List (Lexeme α V))
    (hl : ∀ l ∈ ls, g.Term l.kind) {n res c} (h : parseT ev g ls n = .ok (res, c)) : c ≤ Calls g r ls.length := by
  cases ho : g.order with
  | nil => simp only [parseT, ho] at h; cases h; omega
  | cons S rest =>
    obtain ⟨s, es, hs, hls, _⟩ := loadSet_ok g hg ls
    have hok := envOK g hg ls hl hs hls
    have hlen : (mkEnv g s ls).lex.length = ls.length := by simp [mkEnv]
    have h := (parseT_mono ev g ls n (max n (bound (mkEnv g s ls) (g.order.map (symIdx s)).toFinset)) (by omega)).ok h
    have hB : bound (mkEnv g s ls) (g.order.map (symIdx s)).toFinset ≤ max n (bound (mkEnv g s ls) (g.order.map (symIdx s)).toFinset) := by omega
    generalize max n (bound (mkEnv g s ls) (g.order.map (symIdx s)).toFinset) = B at h hB
    have hp := forget_ok (parseT_forget ev g ls B) h
    simp only [parseT, ho, es, Out.bind_ok] at h
    obtain ⟨⟨t, c'⟩, h1, h2⟩ := Out.bind_eq_ok.1 h
    have hc : c' = c := by
      dsimp only at h2
      cases t with
      | none => cases h2; rfl
      | some t =>
        obtain ⟨t', _, h2⟩ := Out.bind_eq_ok.1 h2
        cases h2
        rfl
    subst hc
    unfold parseIdxT at h1
    obtain ⟨⟨st0, c0⟩, e0, h1⟩ := Out.bind_eq_ok.1 h1
    obtain ⟨⟨st, c1⟩, e1, h1⟩ := Out.bind_eq_ok.1 h1
    have hr' : ∀ A k p, (mkEnv g s ls).gram.Rule A k p → p.length ≤ r := by
      intro A k p hrule
      obtain ⟨A', q, _, hrule', e, _⟩ := rule_down hs (o := []) hrule S
      rw [e, List.length_map]
      exact hr _ _ _ hrule'
    unfold bound at hB
    have hu : unq (mkEnv g s ls) (g.order.map (symIdx s)).toFinset St.init < B := by
      have : unq (mkEnv g s ls) (g.order.map (symIdx s)).toFinset St.init ≤ (allM (mkEnv g s ls) (g.order.map (symIdx s)).toFinset).card :=
        Finset.card_filter_le _ _
      omega
    have hc1 : C1 St.init (fun _ => False) := by intro m tp h; simp [St.init] at h
    have b0 := addProdsT_cost hok hr' (P := fun _ => False) (fuel := B) (by omega) B St.init ⟨symIdx s S, 0⟩ st0 c0 (WF_init _) hc1
      (Nat.zero_le _) hu e0
    obtain ⟨sta, ea, p0, c30, hq0⟩ := addProds_spec (P := fun _ => False) (nts := (g.order.map (symIdx s)).toFinset) hok (fuel := B) (by omega) B
      St.init ⟨symIdx s S, 0⟩ (WF_init _) hc1 (Nat.zero_le _) hu
    rw [forget_ok (addProdsT_forget _ _ _ _ _) e0] at ea
    cases ea
    have inv0 : LInv (mkEnv g s ls) st0 (fun _ => False) :=
      ⟨p0.wf, p0.c1, fun _ _ h => h.elim, c30 _ (by intro m hm; simp [St.init] at hm)⟩
    have b1 := loopT_cost hok hr' (fuel := B) (by omega) (by omega) B st0 _ st c1 inv0 e1
    have b0' : c0 + owed (mkEnv g s ls) (g.order.map (symIdx s)).toFinset
        (memoCost r (g.order.map (symIdx s)).toFinset.card (mkEnv g s ls).lex.length) st0 ≤ 1 + st0.stack.length +
        owed (mkEnv g s ls) (g.order.map (symIdx s)).toFinset
        (memoCost r (g.order.map (symIdx s)).toFinset.card (mkEnv g s ls).lex.length) St.init := by
      simpa [St.init] using b0
    have hcard : (g.order.map (symIdx s)).toFinset.card ≤ g.order.length := by
      have := List.toFinset_card_le (g.order.map (symIdx s))
      simpa using this
    have hK : memoCost r (g.order.map (symIdx s)).toFinset.card (mkEnv g s ls).lex.length ≤ memoCost r g.order.length ls.length := by
      rw [hlen]
      exact memoCost_mono hcard
    have hphi : phi (mkEnv g s ls) (g.order.map (symIdx s)).toFinset st0 ≤ Rounds g ls.length := by
      have := p0.phi
      have := phi_init g ls hs
      omega
    have b2 := Nat.mul_le_mul hphi (Nat.add_le_add_right hK 6)
    have b3 : owed (mkEnv g s ls) (g.order.map (symIdx s)).toFinset
        (memoCost r (g.order.map (symIdx s)).toFinset.card (mkEnv g s ls).lex.length) St.init ≤
        (ls.length + 1) * (count g * (memoCost r g.order.length ls.length + 3)) := by
      rw [owed_init, hlen]
      refine Nat.mul_le_mul_left _ ?_
      rw [← Finset.sum_mul]
      refine Nat.mul_le_mul ?_ (by rw [hlen] at hK; omega)
      refine Nat.le_trans (sum_toFinset_le _ _) ?_
      unfold count
      rw [List.map_map]
      refine Nat.le_of_eq (congrArg List.sum (List.map_congr_left fun A hA => ?_))
      show ((idxProds g s (symIdx s A)).getD []).length = _
      rw [idxProds_symIdx hs.inv (hs.order A hA)]
      cases g.prods A <;> simp
    have b4 : ∃ x, c' = c0 + c1 + x ∧ x ≤ TreeBound r g.order.length ls.length := by
      dsimp only at h1
      split at h1
      · cases h1
        exact ⟨0, rfl, Nat.zero_le _⟩
      · obtain ⟨⟨t1, c2⟩, e2, h1⟩ := Out.bind_eq_ok.1 h1
        cases h1
        refine ⟨c2, rfl, ?_⟩
        obtain ⟨t', e3, h2⟩ := Out.bind_eq_ok.1 h2
        cases h2
        rw [toPNT_nodes _ _ _ _ _ _ _ e2, ← nameTree_nodes e3]
        exact C91_nodes_linear ev g hg hr ls hl hp
    obtain ⟨x, hx, hxb⟩ := b4
    unfold Calls
    omega

/-- C103: for every grammar the calls are at most polynomial in the number of lexemes, of degree two more than the longest production has
symbols. -/
theorem C103_polynomial (g : Grammar α) (hg : g.WF) {r : Nat} (hr : ∀ A k p, g.Rule A k p → p.length ≤ r) :
    ∃ C, ∀ (V : Type) (ev : V) (ls : List (Lexeme α V)), (∀ l ∈ ls, g.Term l.kind) → ∀ n res c, parseT ev g ls n = .ok (res, c) →
      c ≤ C * (ls.length + 1) ^ (r + 2) := by
  let N := g.order.length
  let F := (1 + r * ((r + 1) ^ N + 1)) * N * 2 + 1
  refine ⟨size g * (9 + 2 * (r * F)) + count g * (6 + 2 * (r * F)) + 1 + F, fun V ev ls hl n res c h => ?_⟩
  refine Nat.le_trans (C103_calls ev g hg hr ls hl h) ?_
  generalize ls.length = m
  have hT : TreeBound r N m ≤ F * (m + 1) := by
    unfold TreeBound
    have : (1 + r * ((r + 1) ^ N + 1)) * N * (2 * m + 1) ≤ (1 + r * ((r + 1) ^ N + 1)) * N * (2 * (m + 1)) := Nat.mul_le_mul_left _ (by omega)
    have e : F * (m + 1) = (1 + r * ((r + 1) ^ N + 1)) * N * (2 * (m + 1)) + (m + 1) := by
      simp only [F]
      ring
    omega
  have hK : memoCost r N m ≤ (3 + 2 * (r * F)) * (m + 1) := by
    unfold memoCost
    have h1 := Nat.mul_le_mul_left r hT
    have e : (3 + 2 * (r * F)) * (m + 1) = 3 * (m + 1) + 2 * (r * (F * (m + 1))) := by ring
    omega
  have hK6 : memoCost r N m + 6 ≤ (9 + 2 * (r * F)) * (m + 1) := by
    have e : (9 + 2 * (r * F)) * (m + 1) = (3 + 2 * (r * F)) * (m + 1) + 6 * (m + 1) := by ring
    omega
  have hK3 : memoCost r N m + 3 ≤ (6 + 2 * (r * F)) * (m + 1) := by
    have e : (6 + 2 * (r * F)) * (m + 1) = (3 + 2 * (r * F)) * (m + 1) + 3 * (m + 1) := by ring
    omega
  have hR : Rounds g m ≤ size g * (m + 1) ^ (r + 1) := by
    unfold Rounds size
    rw [← List.sum_map_mul_right]
    refine List.sum_le_sum fun A hA => ?_
    rw [← List.sum_map_mul_right]
    refine List.sum_le_sum fun p hp => ?_
    have hpl : p.length ≤ r := by
      cases hps : g.prods A with
      | none => simp [hps] at hp
      | some ps =>
        rw [hps] at hp
        obtain ⟨k, hk⟩ := List.getElem?_of_mem hp
        exact hr A k p ⟨ps, hps, hk⟩
    have : ∀ x ∈ (List.range p.length).map fun j => (m + 1) ^ (j + 2), x ≤ (m + 1) ^ (r + 1) := by
      intro x hx
      obtain ⟨j, hj, rfl⟩ := List.mem_map.1 hx
      have := List.mem_range.1 hj
      exact Nat.pow_le_pow_right (by omega) (by omega)
    have := List.sum_le_card_nsmul _ _ this
    simpa using this
  have q1 : (m + 1) * (m + 1) ≤ (m + 1) ^ (r + 2) := by
    rw [← Nat.pow_two]
    exact Nat.pow_le_pow_right (by omega) (by omega)
  have q0 : m + 1 ≤ (m + 1) ^ (r + 2) := Nat.le_self_pow (by omega) _
  unfold Calls
  have s1 := Nat.mul_le_mul hR hK6
  have e1 : size g * (m + 1) ^ (r + 1) * ((9 + 2 * (r * F)) * (m + 1)) = size g * (9 + 2 * (r * F)) * (m + 1) ^ (r + 2) := by ring
  have s2 : (m + 1) * (count g * (memoCost r N m + 3)) ≤ count g * (6 + 2 * (r * F)) * (m + 1) ^ (r + 2) := by
    have h1 := Nat.mul_le_mul_left ((m + 1) * count g) hK3
    have h2 := Nat.mul_le_mul_left (count g * (6 + 2 * (r * F))) q1
    have e2 : (m + 1) * count g * ((6 + 2 * (r * F)) * (m + 1)) = count g * (6 + 2 * (r * F)) * ((m + 1) * (m + 1)) := by ring
    rw [Nat.mul_assoc] at h1
    omega
  have s3 := Nat.mul_le_mul_left F q0
  have e3 : (size g * (9 + 2 * (r * F)) + count g * (6 + 2 * (r * F)) + 1 + F) * (m + 1) ^ (r + 2) =
      size g * (9 + 2 * (r * F)) * (m + 1) ^ (r + 2) + count g * (6 + 2 * (r * F)) * (m + 1) ^ (r + 2) + (m + 1) ^ (r + 2) +
        F * (m + 1) ^ (r + 2) := by ring
  have e4 : g.order.length = N := rfl
  rw [e3, e4]
  omega

omit [DecidableEq α] in
/-- Every grammar has a longest production. -/
theorem longest (g : Grammar α) (hg : g.WF) : ∃ r, ∀ A k p, g.Rule A k p → p.length ≤ r := by
  refine ⟨((g.order.flatMap fun A => (g.prods A).getD []).map List.length).sum, fun A k p hr => ?_⟩
  obtain ⟨ps, e, hk⟩ := hr
  refine List.single_le_sum (by simp) _ (List.mem_map.2 ⟨p, List.mem_flatMap.2 ⟨A, (hg A).1 (by simp [e]), ?_⟩, rfl⟩)
  rw [e]
  exact List.mem_of_getElem? hk

/-- C103: Parse returns after a number of calls that is at most polynomial, for every grammar. -/
theorem C103_total (g : Grammar α) (hg : g.WF) : ∃ C d, ∀ (V : Type) (ev : V) (ls : List (Lexeme α V)), (∀ l ∈ ls, g.Term l.kind) →
    ∃ r c, Out.Returns (parseT ev g ls) (r, c) ∧ Out.Returns (parse ev g ls) r ∧ c ≤ C * (ls.length + 1) ^ d := by
  obtain ⟨r, hr⟩ := longest g hg
  obtain ⟨C, hC⟩ := C103_polynomial g hg hr
  refine ⟨C, r + 2, fun V ev ls hl => ?_⟩
  obtain ⟨res, N, hN⟩ := Verif.Props.Packrat.C18_terminates ev g hg ls hl
  have := C103_same ev g ls N
  rw [hN N (Nat.le_refl _)] at this
  obtain ⟨⟨r', c⟩, e, e'⟩ := Out.bind_eq_ok.1 this
  cases e'
  exact ⟨_, c, Out.returns_of (parseT_mono ev g ls) e, ⟨N, hN⟩, hC V ev ls hl N _ c e⟩

/-- The calls for `m` lexemes of the grammar `gk k` (see C89). -/
def calls (k m : Nat) : Option Nat :=
  match parseT 0 (gk k) (as m) 200 with
  | .ok (_, c) => some c
  | _ => none

/-- C103 on small inputs: `A -> B ... B ; B -> a B |`. -/
theorem C103_said : (calls 0 3, calls 1 3, calls 2 3, Calls (gk 0) 2 3) = (some 75, some 151, some 281, 128672) := by
  decide +kernel

end Verif.Props.PackratTotal
