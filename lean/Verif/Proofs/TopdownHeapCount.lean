import Verif.Model.TopdownHeap
import Verif.Proofs.TopdownCount
/- The memory that the top-down parser allocates, against the work of Model/TopdownCount. -/
namespace Verif.TopdownHeap
open Verif.Spec Verif.TreeHeap

variable {β V : Type}

/-- The same answer: both nil, or both end at the same position. -/
def SameEnd : Option (Topdown.Resp β V) → Option HResp → Prop
  | none, none => True
  | some r, some a => a.stop = r.stop
  | _, _ => False

/-- The same answer in the memo. -/
def SameMemo : Option (Option (Topdown.Resp β V)) → Option (Option HResp) → Prop
  | none, none => True
  | some r, some a => SameEnd r a
  | _, _ => False

/-- The memory has grown by at most `c`. -/
def GrowBy (h h' : Heap β V) (c : Nat) : Prop := h'.cells.length ≤ h.cells.length + c ∧ h'.arrs.length ≤ h.arrs.length + c

theorem GrowBy.trans {h h' h'' : Heap β V} {c c'} (a : GrowBy h h' c) (b : GrowBy h' h'' c') : GrowBy h h'' (c + c') := by
  have := a.1; have := a.2; have := b.1; have := b.2
  exact ⟨by omega, by omega⟩

theorem GrowBy.le {h h' : Heap β V} {c c'} (a : GrowBy h h' c) (hc : c ≤ c') : GrowBy h h' c' :=
  ⟨Nat.le_trans a.1 (by omega), Nat.le_trans a.2 (by omega)⟩

/-- What is known of a call and of the same call with the work counted. -/
def Cost (h : Heap β V) (hm : HMemo β) (rec : Heap β V → HMemo β → Out (Heap β V × HMemo β × Option HResp))
    (recC : Out ((Topdown.Memo β V × Option (Topdown.Resp β V)) × Nat)) : Prop :=
  ∀ m' r c, recC = .ok ((m', r), c) → ∃ h' hm' a, rec h hm = .ok (h', hm', a) ∧ (∀ k, SameMemo (m' k) (hm' k)) ∧ SameEnd r a ∧ GrowBy h h' c

theorem store_len (h : Heap β V) (s : Slice) (i : Nat) (v : Option Nat) :
    (h.store s i v).cells.length = h.cells.length ∧ (h.store s i v).arrs.length = h.arrs.length := by
  simp [Heap.store]

section
variable {rec : Heap β V → HMemo β → β → Nat → Out (Heap β V × HMemo β × Option HResp)}
  {recC : Topdown.Memo β V → β → Nat → Out ((Topdown.Memo β V × Option (Topdown.Resp β V)) × Nat)}

theorem prodLoop_cost (H : ∀ h hm m X p, (∀ k, SameMemo (m k) (hm k)) → Cost h hm (fun h hm => rec h hm X p) (recC m X p)) (s : Slice) :
    ∀ (p : List β) i h hm m pos, (∀ k, SameMemo (m k) (hm k)) → ∀ m' r c, Topdown.prodLoopC recC m p pos = .ok ((m', r), c) →
      ∃ h' hm', prodLoop rec s i h hm p pos = .ok (h', hm', r.map (·.2)) ∧ (∀ k, SameMemo (m' k) (hm' k)) ∧ GrowBy h h' c
  | [], i, h, hm, m, pos, hk, m', r, c, e => by
    cases e
    exact ⟨h, hm, rfl, hk, Nat.le_refl _, Nat.le_refl _⟩
  | X :: p, i, h, hm, m, pos, hk, m', r, c, e => by
    rw [Topdown.prodLoopC] at e
    obtain ⟨⟨⟨m1, r1⟩, c1⟩, e1, e⟩ := Out.bind_eq_ok.1 e
    obtain ⟨h1, hm1, a1, f1, k1, s1, g1⟩ := H h hm m X pos hk m1 r1 c1 e1
    have f1 : rec h hm X pos = .ok (h1, hm1, a1) := f1
    rw [prodLoop, f1, Out.bind_ok]
    match r1, a1, s1 with
    | none, none, _ =>
      cases e
      exact ⟨h1, hm1, rfl, k1, g1⟩
    | some r1, some a1, s1 =>
      simp only at e
      obtain ⟨⟨⟨m2, q⟩, c2⟩, e2, e⟩ := Out.bind_eq_ok.1 e
      have hs := store_len h1 s i (some a1.node)
      obtain ⟨h2, hm2, f2, k2, g2⟩ := prodLoop_cost H s p (i + 1) (h1.store s i (some a1.node)) hm1 m1 r1.stop k1 m2 q c2 e2
      have s1 : a1.stop = r1.stop := s1
      have g2 : GrowBy h1 h2 c2 := ⟨by have := g2.1; rw [hs.1] at this; exact this, by have := g2.2; rw [hs.2] at this; exact this⟩
      simp only [s1, f2]
      match q with
      | none => cases e; exact ⟨h2, hm2, rfl, k2, g1.trans g2⟩
      | some (ks, e') => cases e; exact ⟨h2, hm2, rfl, k2, g1.trans g2⟩

theorem prodsLoop_cost (ev : V) (H : ∀ h hm m X p, (∀ k, SameMemo (m k) (hm k)) → Cost h hm (fun h hm => rec h hm X p) (recC m X p))
    (len : Nat) (s : β) (pos : Nat) (all : Bool) : ∀ (ps : List (List β)) h hm m, (∀ k, SameMemo (m k) (hm k)) →
      Cost h hm (fun h hm => prodsLoop ev rec len s pos all h hm ps) (Topdown.prodsLoopC ev recC len s pos all m ps)
  | [], h, hm, m, hk, m', r, c, e => by
    cases e
    exact ⟨h, hm, none, rfl, hk, trivial, Nat.le_refl _, Nat.le_refl _⟩
  | p :: ps, h, hm, m, hk, m', r, c, e => by
    rw [Topdown.prodsLoopC] at e
    obtain ⟨⟨⟨m1, r1⟩, c1⟩, e1, e⟩ := Out.bind_eq_ok.1 e
    obtain ⟨h1, hm1, f1, k1, g1⟩ := prodLoop_cost H ⟨h.arrs.length, p.length⟩ p 0 (h.newArr (List.replicate p.length none)) hm m pos hk m1 r1 c1 e1
    have gA : GrowBy h h1 (1 + c1) := by
      have := g1.1; have := g1.2
      simp only [Heap.newArr, List.length_append, List.length_singleton] at *
      exact ⟨by omega, by omega⟩
    have rest : ∀ h2, GrowBy h h2 (1 + c1) → ∀ m' r c, ((Topdown.prodsLoopC ev recC len s pos all m1 ps).bind fun q => .ok (q.1, 1 + c1 + q.2)) = .ok ((m', r), c) →
        ∃ h' hm' a, prodsLoop ev rec len s pos all h2 hm1 ps = .ok (h', hm', a) ∧ (∀ k, SameMemo (m' k) (hm' k)) ∧ SameEnd r a ∧ GrowBy h h' c := by
      intro h2 g2 m' r c e
      obtain ⟨⟨⟨m2, q⟩, c2⟩, e2, e⟩ := Out.bind_eq_ok.1 e
      cases e
      obtain ⟨h3, hm3, a, f3, k3, s3, g3⟩ := prodsLoop_cost ev H len s pos all ps h2 hm1 m1 k1 _ _ _ e2
      exact ⟨h3, hm3, a, f3, k3, s3, g2.trans g3⟩
    simp only [prodsLoop, acceptProd, f1, Out.bind_ok]
    match r1 with
    | none =>
      simp only [Option.map_none, Out.bind_ok]
      exact rest h1 gA m' r c e
    | some (ks, en) =>
      simp only [Option.map_some, Out.bind_ok]
      have gB : GrowBy h (h1.newCell ⟨⟨s, ev, -1, 0⟩, none, ⟨h.arrs.length, p.length⟩⟩) (1 + c1) := by
        have := g1.1; have := gA.2
        simp only [Heap.newArr, Heap.newCell, List.length_append, List.length_singleton] at *
        exact ⟨by simp only [List.length_append, List.length_singleton]; omega, by omega⟩
      simp only at e
      by_cases hc : (!all || decide (en = len)) = true
      · rw [if_pos hc] at e ⊢
        cases e
        exact ⟨_, _, _, rfl, k1, rfl, gB⟩
      · rw [if_neg hc] at e ⊢
        exact rest _ gB m' r c e
end

variable [DecidableEq β]

/-- The memory grows by at most the work. -/
theorem accept_cost (ev : V) (prods : β → Option (List (List β))) (lxs : List (Lexeme β V)) : ∀ n h hm m s pos all, (∀ k, SameMemo (m k) (hm k)) →
    Cost h hm (fun h hm => accept ev prods lxs n h hm s pos all) (Topdown.acceptC ev prods lxs n m s pos all)
  | 0, _, _, _, _, _, _, _, _, _, _, e => by cases e
  | n + 1, h, hm, m, s, pos, all, hk, m', r, c, e => by
    rw [Topdown.acceptC] at e
    simp only [accept]
    have hks := hk (s, pos)
    match h1 : m (s, pos), h2 : hm (s, pos), hks with
    | some r1, some a1, hks =>
      rw [h1] at e
      cases e
      exact ⟨h, hm, a1, rfl, hk, hks, by omega, by omega⟩
    | none, none, _ =>
      rw [h1] at e
      simp only at e
      obtain ⟨⟨⟨m1, r1⟩, c1⟩, e1, e⟩ := Out.bind_eq_ok.1 e
      cases e
      have key : ∃ h' hm' a, tryAccept ev prods lxs (fun h m X p => accept ev prods lxs n h m X p false) h hm s pos all = .ok (h', hm', a) ∧
          (∀ k, SameMemo (m1 k) (hm' k)) ∧ SameEnd r1 a ∧ GrowBy h h' (1 + c1) := by
        unfold Topdown.tryAcceptC at e1
        unfold tryAccept
        cases hp : prods s with
        | none =>
          rw [hp] at e1
          simp only at e1 ⊢
          cases hl : lxs[pos]? with
          | none =>
            rw [hl] at e1
            cases e1
            exact ⟨h, hm, none, rfl, hk, trivial, by omega, by omega⟩
          | some l =>
            rw [hl] at e1
            simp only at e1 ⊢
            by_cases hc : s = l.kind
            · rw [if_pos hc] at e1 ⊢
              cases e1
              exact ⟨_, _, _, rfl, hk, rfl, by simp [freshNode, Heap.newArr, Heap.newCell], by simp [freshNode, Heap.newArr, Heap.newCell]⟩
            · rw [if_neg hc] at e1 ⊢
              cases e1
              exact ⟨h, hm, none, rfl, hk, trivial, by omega, by omega⟩
        | some ps =>
          rw [hp] at e1
          obtain ⟨h', hm', a, f, k, q, g⟩ := prodsLoop_cost ev (fun h hm m X p hk => accept_cost ev prods lxs n h hm m X p false hk) lxs.length s pos all ps h hm m hk
            _ _ _ e1
          exact ⟨h', hm', a, f, k, q, g.le (by omega)⟩
      obtain ⟨h', hm', a, f, k, q, g⟩ := key
      simp only [f, Out.bind_ok]
      refine ⟨h', _, a, rfl, fun x => ?_, q, g⟩
      by_cases hx : x = (s, pos)
      · subst hx
        rw [upd_same, upd_same]
        exact q
      · rw [upd_ne _ _ hx, upd_ne _ _ hx]
        exact k x

end Verif.TopdownHeap
