import Verif.Proofs.TreeHeapBuild
/- `New` in memory. -/
namespace Verif.Spec.TreeHeap
open Verif.Spec Verif.TreeHeap

/-- The node at `cur` is being made: its children are `ks` and then those in `last`; `ups` are the nodes around it, each
with the children before. -/
def Zip {α V : Type} (h : Heap α V) : List (Lexeme α V × List (PN α V)) → Nat → List (PN α V) → List (Option Nat) → List Nat → List Nat → Prop
  | [], cur, ks, last, F, A => ∃ c ar os F' A', h.cells[cur]? = some c ∧ c.P = none ∧ h.arrs[c.C.arr]? = some ar ∧ c.C.len ≤ ar.length ∧
      ar.take c.C.len = os ++ last ∧ Reps true h ks cur os F' A' ∧ F = cur :: F' ∧ A = c.C.arr :: A'
  | (l, sib) :: ups, cur, ks, last, F, A => ∃ c ar os F' A' p F2 A2, h.cells[cur]? = some c ∧ c.P = some p ∧ h.arrs[c.C.arr]? = some ar ∧ c.C.len ≤ ar.length ∧
      ar.take c.C.len = os ++ last ∧ Reps true h ks cur os F' A' ∧ c.lx = l ∧ Zip h ups p sib [some cur] F2 A2 ∧
      F = (cur :: F') ++ F2 ∧ A = (c.C.arr :: A') ++ A2

variable {α V : Type}

/-- The part of `Zip` about the node itself. -/
theorem Zip.node {h : Heap α V} {ups cur ks last F A} (hz : Zip h ups cur ks last F A) :
    ∃ c ar os F' A' F2 A2, h.cells[cur]? = some c ∧ h.arrs[c.C.arr]? = some ar ∧ c.C.len ≤ ar.length ∧
      ar.take c.C.len = os ++ last ∧ Reps true h ks cur os F' A' ∧ F = (cur :: F') ++ F2 ∧ A = (c.C.arr :: A') ++ A2 := by
  match ups, hz with
  | [], ⟨c, ar, os, F', A', h1, _, h3, h4, h5, h6, h7, h8⟩ => exact ⟨c, ar, os, F', A', [], [], h1, h3, h4, h5, h6, by simp [h7], by simp [h8]⟩
  | (l, sib) :: ups, ⟨c, ar, os, F', A', p, F2, A2, h1, _, h3, h4, h5, h6, _, _, h7, h8⟩ => exact ⟨c, ar, os, F', A', F2, A2, h1, h3, h4, h5, h6, h7, h8⟩

theorem Zip.bound {h : Heap α V} : ∀ {ups cur ks last F A}, Zip h ups cur ks last F A →
    (∀ x ∈ F, x < h.cells.length) ∧ (∀ x ∈ A, x < h.arrs.length)
  | [], cur, ks, last, F, A, hz => by
    obtain ⟨c, ar, os, F', A', h1, _, h3, h4, h5, h6, rfl, rfl⟩ := hz
    have b := h6.bound
    constructor
    · intro x hx
      rcases List.mem_cons.1 hx with rfl | hx
      · exact (List.getElem?_eq_some_iff.1 h1).1
      · exact b.1 x hx
    · intro x hx
      rcases List.mem_cons.1 hx with rfl | hx
      · exact (List.getElem?_eq_some_iff.1 h3).1
      · exact b.2 x hx
  | (l, sib) :: ups, cur, ks, last, F, A, hz => by
    obtain ⟨c, ar, os, F', A', p, F2, A2, h1, _, h3, h4, h5, h6, _, h8, rfl, rfl⟩ := hz
    have b := h6.bound
    have b2 := h8.bound
    constructor
    · intro x hx
      rcases List.mem_append.1 hx with hx | hx
      · rcases List.mem_cons.1 hx with rfl | hx
        · exact (List.getElem?_eq_some_iff.1 h1).1
        · exact b.1 x hx
      · exact b2.1 x hx
    · intro x hx
      rcases List.mem_append.1 hx with hx | hx
      · rcases List.mem_cons.1 hx with rfl | hx
        · exact (List.getElem?_eq_some_iff.1 h3).1
        · exact b.2 x hx
      · exact b2.2 x hx

theorem Zip.frame {h h' : Heap α V} : ∀ {ups cur ks last F A}, Zip h ups cur ks last F A →
    (∀ x ∈ F, h'.cells[x]? = h.cells[x]?) → (∀ x ∈ A, h'.arrs[x]? = h.arrs[x]?) → Zip h' ups cur ks last F A
  | [], cur, ks, last, F, A, hz, hF, hA => by
    obtain ⟨c, ar, os, F', A', h1, h2, h3, h4, h5, h6, rfl, rfl⟩ := hz
    exact ⟨c, ar, os, F', A', by rw [hF _ (by simp)]; exact h1, h2, by rw [hA _ (by simp)]; exact h3, h4, h5,
      h6.frame (fun x hx => .of_eq (hF x (by simp [hx]))) (fun x hx => hA x (by simp [hx])), rfl, rfl⟩
  | (l, sib) :: ups, cur, ks, last, F, A, hz, hF, hA => by
    obtain ⟨c, ar, os, F', A', p, F2, A2, h1, h2, h3, h4, h5, h6, h7, h8, rfl, rfl⟩ := hz
    exact ⟨c, ar, os, F', A', p, F2, A2, by rw [hF _ (by simp)]; exact h1, h2, by rw [hA _ (by simp)]; exact h3, h4, h5,
      h6.frame (fun x hx => .of_eq (hF x (by simp [hx]))) (fun x hx => hA x (by simp [hx])), h7,
      h8.frame (fun x hx => hF x (by simp [hx])) (fun x hx => hA x (by simp [hx])), rfl, rfl⟩

/-- State of `New`: from `h0` only new things were made. -/
def Making (h0 h : Heap α V) (ups : List (Lexeme α V × List (PN α V))) (cur : Nat) (ks : List (PN α V)) : Prop :=
  ∃ F A, Zip h ups cur ks [] F A ∧ F.Nodup ∧ A.Nodup ∧ Frame h0 h [] [] ∧ (∀ x ∈ F, h0.cells.length ≤ x) ∧ ∀ x ∈ A, h0.arrs.length ≤ x

/-- The node is complete: it becomes the last child of its parent. -/
theorem Zip.close {h : Heap α V} {l sib ups cur ks F A} (hz : Zip h ((l, sib) :: ups) cur ks [] F A) :
    ∃ p c F' A', h.cells[cur]? = some c ∧ c.P = some p ∧ Zip h ups p (sib ++ [.node l ks]) [] F' A' ∧ F'.Perm F ∧ A'.Perm A := by
  obtain ⟨c, ar, os, F1, A1, p, F2, A2, h1, h2, h3, h4, h5, h6, h7, h8, rfl, rfl⟩ := hz
  have hr : Rep true h (.node l ks) (some p) cur (cur :: F1) (c.C.arr :: A1) :=
    ⟨c, ar, F1, A1, h1, h7, fun _ => h2, h3, h4, by rw [h5, List.append_nil]; exact h6, rfl, rfl⟩
  have hr1 : Reps true h [.node l ks] p [some cur] (cur :: F1) (c.C.arr :: A1) := ⟨cur, [], cur :: F1, c.C.arr :: A1, [], [], rfl, hr, ⟨rfl, rfl, rfl⟩, by simp, by simp⟩
  match ups, h8 with
  | [], ⟨d, ar2, os2, F3, A3, g1, g2, g3, g4, g5, g6, e1, e2⟩ =>
    subst e1; subst e2
    refine ⟨p, c, p :: (F3 ++ (cur :: F1)), d.C.arr :: (A3 ++ (c.C.arr :: A1)), h1, h2, ⟨d, ar2, os2 ++ [some cur], _, _, g1, g2, g3, g4, by rw [g5]; simp, g6.append hr1, rfl, rfl⟩, ?_, ?_⟩
    · exact (List.perm_append_comm (l₁ := p :: F3) (l₂ := cur :: F1))
    · exact (List.perm_append_comm (l₁ := d.C.arr :: A3) (l₂ := c.C.arr :: A1))
  | (l', sib') :: ups, ⟨d, ar2, os2, F3, A3, q, F4, A4, g1, g2, g3, g4, g5, g6, g7, g8, e1, e2⟩ =>
    subst e1; subst e2
    refine ⟨p, c, (p :: (F3 ++ (cur :: F1))) ++ F4, (d.C.arr :: (A3 ++ (c.C.arr :: A1))) ++ A4, h1, h2,
      ⟨d, ar2, os2 ++ [some cur], _, _, q, F4, A4, g1, g2, g3, g4, by rw [g5]; simp, g6.append hr1, g7, g8, rfl, rfl⟩, ?_, ?_⟩
    · have := (List.perm_append_comm (l₁ := p :: F3) (l₂ := cur :: F1)).append_right F4
      rw [List.append_assoc, List.append_assoc] at this
      simpa using this
    · have := (List.perm_append_comm (l₁ := d.C.arr :: A3) (l₂ := c.C.arr :: A1)).append_right A4
      rw [List.append_assoc, List.append_assoc] at this
      simpa using this

theorem Making.close {h0 h : Heap α V} {l sib ups cur ks} (hm : Making h0 h ((l, sib) :: ups) cur ks) :
    ∃ p c, h.cells[cur]? = some c ∧ c.P = some p ∧ Making h0 h ups p (sib ++ [.node l ks]) := by
  obtain ⟨F, A, hz, nF, nA, hf, w1, w2⟩ := hm
  obtain ⟨p, c, F', A', e1, e2, hz', pF, pA⟩ := hz.close
  exact ⟨p, c, e1, e2, F', A', hz', pF.symm.nodup nF, pA.symm.nodup nA, hf, fun x hx => w1 x (pF.subset hx), fun x hx => w2 x (pA.subset hx)⟩

/-- Changing the array and length of the node being made. -/
theorem Zip.setLast {h h' : Heap α V} {ups cur ks F A c ar' s last} (hz : Zip h ups cur ks [] F A) (nF : F.Nodup) (nA : A.Nodup) (hc : h.cells[cur]? = some c)
    (hlt : ∀ x < h.cells.length, x ≠ cur → h'.cells[x]? = h.cells[x]?) (hcur : h'.cells[cur]? = some { c with C := s })
    (hs : h'.arrs[s.arr]? = some ar') (hl : s.len ≤ ar'.length) (hv : ar'.take s.len = h.vals c.C ++ last)
    (hA : ∀ x < h.arrs.length, x ≠ c.C.arr → h'.arrs[x]? = h.arrs[x]?) (hsA : s.arr = c.C.arr ∨ h.arrs.length ≤ s.arr) :
    ∃ A', Zip h' ups cur ks last F A' ∧ A'.Nodup ∧ ∀ x ∈ A', x ∈ A ∨ x = s.arr := by
  have hb := hz.bound
  match ups, hz with
  | [], ⟨d, ar, os, F', A', g1, g2, g3, g4, g5, g6, e1, e2⟩ =>
    subst e1; subst e2
    rw [hc] at g1
    cases g1
    have nF' := List.nodup_cons.1 nF
    have nA' := List.nodup_cons.1 nA
    have hsn : s.arr ∉ A' := by
      rcases hsA with e | e
      · rw [e]; exact nA'.1
      · intro hm; have := hb.2 _ (List.mem_cons_of_mem _ hm); omega
    refine ⟨s.arr :: A', ⟨_, ar', os, F', A', hcur, g2, hs, hl, ?_, ?_, rfl, rfl⟩, List.nodup_cons.2 ⟨hsn, nA'.2⟩, ?_⟩
    · rw [hv, vals_eq g3, g5, List.append_nil]
    · refine g6.frame (fun x hx => .of_eq (hlt x (hb.1 x (by simp [hx])) ?_)) (fun x hx => hA x (hb.2 x (by simp [hx])) ?_)
      · rintro rfl; exact nF'.1 hx
      · intro e; exact nA'.1 ((show x = _ from e) ▸ hx)
    · intro x hx
      rcases List.mem_cons.1 hx with rfl | hx
      · exact .inr rfl
      · exact .inl (by simp [hx])
  | (l', sib') :: ups, ⟨d, ar, os, F', A', p, F2, A2, g1, g2, g3, g4, g5, g6, g7, g8, e1, e2⟩ =>
    subst e1; subst e2
    rw [hc] at g1
    cases g1
    have nF' := List.nodup_cons.1 (show (cur :: (F' ++ F2)).Nodup from nF)
    have nA' := List.nodup_cons.1 (show (c.C.arr :: (A' ++ A2)).Nodup from nA)
    have hsn : s.arr ∉ A' ++ A2 := by
      rcases hsA with e | e
      · rw [e]; exact nA'.1
      · intro hm; have := hb.2 _ (List.mem_cons_of_mem _ hm); omega
    refine ⟨(s.arr :: A') ++ A2, ⟨_, ar', os, F', A', p, F2, A2, hcur, g2, hs, hl, ?_, ?_, g7, ?_, rfl, rfl⟩, List.nodup_cons.2 ⟨hsn, nA'.2⟩, ?_⟩
    · rw [hv, vals_eq g3, g5, List.append_nil]
    · refine g6.frame (fun x hx => .of_eq (hlt x (hb.1 x (by simp [hx])) ?_)) (fun x hx => hA x (hb.2 x (by simp [hx])) ?_)
      · rintro rfl; exact nF'.1 (by simp [hx])
      · intro e; exact nA'.1 ((show x = _ from e) ▸ (by simp [hx]))
    · refine g8.frame (fun x hx => hlt x (hb.1 x (by simp [hx])) ?_) (fun x hx => hA x (hb.2 x (by simp [hx])) ?_)
      · rintro rfl; exact nF'.1 (by simp [hx])
      · intro e; exact nA'.1 ((show x = _ from e) ▸ (by simp [hx]))
    · intro x hx
      rcases List.mem_cons.1 (show x ∈ s.arr :: (A' ++ A2) from hx) with rfl | hx
      · exact .inr rfl
      · exact .inl (List.mem_cons_of_mem _ hx)

/-- A new node below the current one. -/
theorem Making.open {h0 h : Heap α V} {ups cur ks} (grow) (l : Lexeme α V) (hm : Making h0 h ups cur ks) :
    ∃ c h', (freshNode h l (some cur)).1.cells[cur]? = some c ∧
      h' = (((freshNode h l (some cur)).1.append grow c.C [some h.cells.length]).1.put cur
        { c with C := ((freshNode h l (some cur)).1.append grow c.C [some h.cells.length]).2 }) ∧ Making h0 h' ((l, ks) :: ups) h.cells.length [] ∧
      ∃ d, h'.cells[h.cells.length]? = some d ∧ d.P = some cur := by
  obtain ⟨F, A, hz, nF, nA, hf, w1, w2⟩ := hm
  obtain ⟨c, ar, os, F', A', F2, A2, h1, h3, h4, h5, h6, eF, eA⟩ := hz.node
  have hb := hz.bound
  have hclt := (List.getElem?_eq_some_iff.1 h1).1
  have halt := (List.getElem?_eq_some_iff.1 h3).1
  have hcF : cur ∈ F := by rw [eF]; simp
  have f1 : ∀ x < h.cells.length, (freshNode h l (some cur)).1.cells[x]? = h.cells[x]? := by
    intro x hx; simp [freshNode, Heap.newCell, Heap.newArr, List.getElem?_append_left hx]
  have f2 : ∀ x < h.arrs.length, (freshNode h l (some cur)).1.arrs[x]? = h.arrs[x]? := by
    intro x hx; simp [freshNode, Heap.newCell, Heap.newArr, List.getElem?_append_left hx]
  have f3 : (freshNode h l (some cur)).1.cells[h.cells.length]? = some ⟨l, some cur, ⟨h.arrs.length, 0⟩⟩ := by
    simp [freshNode, Heap.newCell, Heap.newArr]
  have f4 : (freshNode h l (some cur)).1.arrs[h.arrs.length]? = some [] := by simp [freshNode, Heap.newCell, Heap.newArr]
  have f5 : (freshNode h l (some cur)).1.cells.length = h.cells.length + 1 := by simp [freshNode, Heap.newCell, Heap.newArr]
  have f6 : (freshNode h l (some cur)).1.arrs.length = h.arrs.length + 1 := by simp [freshNode, Heap.newCell, Heap.newArr]
  refine ⟨c, _, (f1 _ hclt).trans h1, rfl, ?_⟩
  generalize (freshNode h l (some cur)).1 = g at *
  obtain ⟨h', s', ar', e, e1, e2, e3, e4, e5, e6, e7, e8⟩ := append_spec grow g [some h.cells.length] ((f2 _ halt).trans h3) h4
  rw [e]
  simp only
  have hs' : s'.arr = c.C.arr ∨ h.arrs.length < s'.arr := e6.imp id (fun e => by omega)
  have hlt' : cur < h'.cells.length := by rw [e1]; omega
  obtain ⟨A', hz', nA', wA⟩ := hz.setLast (h' := h'.put cur { c with C := s' }) (s := s') (last := [some h.cells.length]) nF nA h1
    (fun x hx hn => by rw [put_ne _ hn, e1]; exact f1 x hx) (put_same _ hlt') e2 e3 (by rw [e4, vals_eq h3])
    (fun x hx hn => by rw [put_arrs, e8 x (by omega) hn]; exact f2 x hx) (hs'.imp id Nat.le_of_lt)
  have hnew : (h'.put cur { c with C := s' }).arrs[h.arrs.length]? = some [] := by
    rw [put_arrs, e8 _ (by omega) (by omega)]; exact f4
  have hcell : (h'.put cur { c with C := s' }).cells[h.cells.length]? = some ⟨l, some cur, ⟨h.arrs.length, 0⟩⟩ := by
    rw [put_ne _ (by omega), e1]; exact f3
  refine ⟨⟨(h.cells.length :: []) ++ F, (h.arrs.length :: []) ++ A', ⟨⟨l, some cur, ⟨h.arrs.length, 0⟩⟩, [], [], [], [], cur, F, A', hcell, rfl, hnew, by simp, by simp, ⟨rfl, rfl, rfl⟩,
    rfl, hz', rfl, rfl⟩, ?_, ?_, ?_, ?_, ?_⟩, _, hcell, rfl⟩
  · exact List.nodup_cons.2 ⟨fun hm => Nat.lt_irrefl _ (hb.1 _ hm), nF⟩
  · refine List.nodup_cons.2 ⟨fun hm => ?_, nA'⟩
    rcases wA _ hm with hm | e
    · exact Nat.lt_irrefl _ (hb.2 _ hm)
    · omega
  · refine ⟨?_, ?_, ?_, ?_⟩
    · have := hf.1; rw [put_length, e1]; omega
    · have := hf.2.1; rw [put_arrs]; omega
    · intro x hx hn
      have := hf.1
      have := w1 cur hcF
      rw [put_ne _ (by omega), e1, f1 x (by omega)]
      exact hf.2.2.1 x hx hn
    · intro x hx hn
      have := hf.2.1
      have := w2 c.C.arr (by rw [eA]; simp)
      rw [put_arrs, e8 x (by omega) (by omega), f2 x (by omega)]
      exact hf.2.2.2 x hx hn
  · intro x hx
    have := hf.1
    rcases List.mem_cons.1 (show x ∈ h.cells.length :: F from hx) with rfl | hx
    · exact this
    · exact w1 x hx
  · intro x hx
    have := hf.2.1
    rcases List.mem_cons.1 (show x ∈ h.arrs.length :: A' from hx) with rfl | hx
    · exact this
    · rcases wA x hx with hx | rfl
      · exact w2 x hx
      · have := w2 c.C.arr (by rw [eA]; simp)
        omega

/-- The state of the code and that of the model on values. -/
def State (h0 : Heap Str Str) : Heap Str Str → Option Nat → TreeText.Cur → Prop
  | _, none, none => True
  | h, some cur, some (ks, ups) => Making h0 h ups cur ks
  | _, _, _ => False

theorem addNode_state (grow) {h0 h : Heap Str Str} {ups cur ks} (hm : Making h0 h ups cur ks) (kind val : Str) (op : Bool) :
    ∃ h' c' z', addNode grow h (some cur) kind val op = .ok (h', c') ∧ TreeText.addNode kind val op (some (ks, ups)) = .ok z' ∧ State h0 h' c' z' := by
  obtain ⟨c, h', hc, rfl, hm', d, hd, hdp⟩ := hm.open grow ⟨kind, TreeText.handleSlash val, -1, 0⟩
  cases op with
  | true =>
    refine ⟨_, some h.cells.length, some ([], _), ?_, rfl, hm'⟩
    simp only [addNode, deref_some hc, Out.bind_ok]; rfl
  | false =>
    obtain ⟨p, d', e1, e2, hm''⟩ := hm'.close
    have : d' = d := Option.some.inj (e1.symm.trans hd)
    subst this
    have : p = cur := Option.some.inj (e2.symm.trans hdp)
    subst this
    refine ⟨_, some p, some (_, ups), ?_, rfl, hm''⟩
    simp only [addNode, deref_some hc, Out.bind_ok]; rfl

theorem newLoop_state (grow) (h0 : Heap Str Str) : ∀ (lines : List Str) (h : Heap Str Str) (cur : Option Nat) (z : TreeText.Cur), State h0 h cur z →
    match TreeText.newLoop z lines with
    | .ok none => newLoop grow h cur lines = .ok none
    | .ok (some z') => ∃ h' cur', newLoop grow h cur lines = .ok (some (h', cur')) ∧ State h0 h' cur' z'
    | .panic => newLoop grow h cur lines = .panic
    | .fuel => newLoop grow h cur lines = .fuel
  | [], h, cur, z, hs => ⟨h, cur, rfl, hs⟩
  | line :: lines, h, cur, z, hs => by
    simp only [TreeText.newLoop, newLoop]
    match TreeText.treeLine line with
    | none => rfl
    | some (close, kind, val, op) =>
      simp only
      have step : ∀ cur z, State h0 h cur z →
          match (if kind ≠ [] then TreeText.addNode kind val op z else .ok z).bind fun z => TreeText.newLoop z lines with
          | .ok none => ((if kind ≠ [] then addNode grow h cur kind val op else .ok (h, cur)).bind fun r => newLoop grow r.1 r.2 lines) = .ok none
          | .ok (some z') => ∃ h' cur', ((if kind ≠ [] then addNode grow h cur kind val op else .ok (h, cur)).bind fun r => newLoop grow r.1 r.2 lines) = .ok (some (h', cur')) ∧ State h0 h' cur' z'
          | .panic => ((if kind ≠ [] then addNode grow h cur kind val op else .ok (h, cur)).bind fun r => newLoop grow r.1 r.2 lines) = .panic
          | .fuel => ((if kind ≠ [] then addNode grow h cur kind val op else .ok (h, cur)).bind fun r => newLoop grow r.1 r.2 lines) = .fuel := by
        intro cur z hs
        by_cases hk : kind ≠ []
        · simp only [if_pos hk]
          match cur, z, hs with
          | none, none, _ => rfl
          | some cur, some (ks, ups), hs =>
            obtain ⟨h', c', z', e1, e2, hs'⟩ := addNode_state grow hs kind val op
            rw [e1, e2]
            exact newLoop_state grow h0 lines h' c' z' hs'
        · simp only [if_neg hk]
          exact newLoop_state grow h0 lines h cur z hs
      cases close with
      | false => exact step cur z hs
      | true =>
        match cur, z, hs with
        | none, none, _ => rfl
        | some cur, some (ks, []), hs =>
          obtain ⟨F, A, ⟨c, ar, os, F', A', h1, h2, _⟩, _⟩ := hs
          simp only [if_true, TreeText.up, deref_some h1, Out.bind_ok, h2]
          exact step none none trivial
        | some cur, some (ks, (l, sib) :: ups), hs =>
          obtain ⟨p, c, e1, e2, hm⟩ := Making.close hs
          simp only [if_true, TreeText.up, deref_some e1, Out.bind_ok, e2]
          exact step (some p) (some (sib ++ [PN.node l ks], ups)) hm

theorem new_newO (grow) (h : Heap Str Str) (str : Str) : NewO h (TreeText.new str) (new grow h str) := by
  have h0 : State h (freshNode h ⟨[], [], 0, 0⟩ none).1 (some (freshNode h ⟨[], [], 0, 0⟩ none).2) (some ([], [])) := by
    refine ⟨[h.cells.length], [h.arrs.length], ⟨⟨⟨[], [], 0, 0⟩, none, ⟨h.arrs.length, 0⟩⟩, [], [], [], [], ?_, rfl, ?_, by simp, by simp, ⟨rfl, rfl, rfl⟩, rfl, rfl⟩,
      by simp, by simp, ⟨?_, ?_, ?_, ?_⟩, by simp, by simp⟩
    · simp [freshNode, Heap.newCell, Heap.newArr]
    · simp [freshNode, Heap.newCell, Heap.newArr]
    · simp [freshNode, Heap.newCell, Heap.newArr]
    · simp [freshNode, Heap.newCell, Heap.newArr]
    · intro x hx _; simp [freshNode, Heap.newCell, Heap.newArr, List.getElem?_append_left hx]
    · intro x hx _; simp [freshNode, Heap.newCell, Heap.newArr, List.getElem?_append_left hx]
  have key := newLoop_state grow h (Grammar.split '\n' str) _ _ _ h0
  simp only [TreeText.new, new]
  match TreeText.newLoop (some ([], [])) (Grammar.split '\n' str), key with
  | .ok none, key => rw [key]; rfl
  | .panic, key => rw [key]; rfl
  | .fuel, key => rw [key]; rfl
  | .ok (some z), ⟨h', cur', e, hs⟩ =>
    rw [e]
    match cur', z, hs with
    | none, none, _ => rfl
    | some cur, some (ks, ups), ⟨F, A, hz, nF, nA, hf, w1, w2⟩ =>
      obtain ⟨c, ar, os, F', A', F2, A2, h1, h3, h4, h5, h6, rfl, rfl⟩ := hz.node
      simp only [Out.bind_ok, deref_some h1, vals_eq h3, h5, List.append_nil]
      cases ks with
      | nil =>
        obtain ⟨rfl, _⟩ := h6
        rfl
      | cons t ts =>
        obtain ⟨x, os', F1, A1, F3, A3, rfl, hr1, hr2, rfl, rfl⟩ := h6
        obtain ⟨lt, kt⟩ := t
        obtain ⟨d, ard, k1, k2, _⟩ := hr1.cell
        subst k2
        rw [show Tree.index (some x :: os') 0 = .ok (some x) from Tree.index_mid [] _ _]
        simp only [Out.bind_ok, deref_some k1]
        have sF : F1.Sublist (cur :: (F1 ++ F3) ++ F2) := by simp [List.Sublist.cons]
        have sA : A1.Sublist (c.C.arr :: (A1 ++ A3) ++ A2) := by simp [List.Sublist.cons]
        refine ⟨_, x, F1, A1, rfl, ⟨setNode hr1 (sF.nodup nF) k1 d.lx none, sF.nodup nF, sA.nodup nA⟩, Frame.put hf _ (w1 x (sF.subset hr1.root_mem)),
          fun y hy => w1 y (sF.subset hy), fun y hy => w2 y (sA.subset hy)⟩

end Verif.Spec.TreeHeap
