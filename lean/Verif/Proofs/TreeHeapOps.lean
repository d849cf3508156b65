import Verif.Proofs.TreeHeap
/- The operations on nodes in memory do what the operations on values do. -/
namespace Verif.Spec.TreeHeap
open Verif.Spec Verif.TreeHeap

variable {α V : Type}

/-- Putting together the node after an operation that may have changed parent links. -/
theorem finishP {β : Type} {lk pp} {h h1 : Heap α V} {a F A t s os ks F' A' ar'} {P : Option Nat} {l : Lexeme α V} (b : β)
    (ho : Own lk h pp a t F A) (hP : lk = true → P = pp) (hk : Reps lk h1 ks a os F' A') (hF : ∀ x ∈ F', x ∈ F) (haF : a ∉ F') (nF : F'.Nodup)
    (hA : ∀ x ∈ A', x ∈ A) (nA : A'.Nodup) (hcl : h1.cells.length = h.cells.length)
    (hcf : ∀ x, x ∉ F → h1.cells[x]? = h.cells[x]?) (hlen : h.arrs.length ≤ h1.arrs.length)
    (hfr : ∀ x < h.arrs.length, x ∉ A → h1.arrs[x]? = h.arrs[x]?)
    (hs : h1.arrs[s.arr]? = some ar') (hl : s.len ≤ ar'.length) (hv : ar'.take s.len = os) (hsA : s.arr ∉ A')
    (hsw : s.arr ∈ A ∨ h.arrs.length ≤ s.arr) :
    SimL lk pp h a F A (.ok (.node l ks, b)) (.ok (h1.put a ⟨l, P, s⟩, b)) := by
  have haF0 : a ∈ F := ho.1.root_mem
  have hlt : a < h1.cells.length := by rw [hcl]; exact ho.1.bound.1 a haF0
  refine ⟨_, a :: F', s.arr :: A', rfl, ⟨⟨_, ar', F', A', put_same _ hlt, rfl, hP, hs, hl, ?_, rfl, rfl⟩, ?_, ?_⟩, ?_, ?_, ?_⟩
  · rw [hv]
    exact hk.frame (fun x hx => .of_eq (put_ne _ (fun e => haF ((show x = a from e) ▸ hx)))) (fun x hx => rfl)
  · exact List.nodup_cons.2 ⟨haF, nF⟩
  · exact List.nodup_cons.2 ⟨hsA, nA⟩
  · refine ⟨by simp [hcl], hlen, fun x hx hn => ?_, hfr⟩
    rw [put_ne _ (fun e => hn ((show x = a from e) ▸ haF0)), hcf x hn]
  · intro x hx
    rcases List.mem_cons.1 hx with rfl | hx
    · exact .inl haF0
    · exact .inl (hF x hx)
  · intro x hx
    rcases List.mem_cons.1 hx with rfl | hx
    · exact hsw
    · exact .inl (hA x hx)

/-- Putting together the node after an operation on arrays. -/
theorem finish {β : Type} {lk pp} {h h1 : Heap α V} {a F A t s os ks F' A' ar'} {P : Option Nat} {l : Lexeme α V} (b : β)
    (ho : Own lk h pp a t F A) (hP : lk = true → P = pp) (hk : Reps lk h ks a os F' A') (hF : ∀ x ∈ F', x ∈ F) (haF : a ∉ F') (nF : F'.Nodup)
    (hA : ∀ x ∈ A', x ∈ A) (nA : A'.Nodup) (hc : h1.cells = h.cells) (hlen : h.arrs.length ≤ h1.arrs.length)
    (hfr : ∀ x < h.arrs.length, x ∉ A → h1.arrs[x]? = h.arrs[x]?) (harr : ∀ x ∈ A', h1.arrs[x]? = h.arrs[x]?)
    (hs : h1.arrs[s.arr]? = some ar') (hl : s.len ≤ ar'.length) (hv : ar'.take s.len = os) (hsA : s.arr ∉ A')
    (hsw : s.arr ∈ A ∨ h.arrs.length ≤ s.arr) :
    SimL lk pp h a F A (.ok (.node l ks, b)) (.ok (h1.put a ⟨l, P, s⟩, b)) :=
  finishP b ho hP (hk.frame (fun x _ => .of_eq (by rw [hc])) harr) hF haF nF hA nA (by rw [hc]) (fun x _ => by rw [hc]) hlen hfr hs hl hv hsA hsw

/-- The same when the parent links of the children are set at the end. -/
theorem finishS {β : Type} {lk pp} {h h1 : Heap α V} {a F A t s os ks F' A' ar'} {P : Option Nat} {l : Lexeme α V} (b : β)
    (ho : Own lk h pp a t F A) (hP : lk = true → P = pp) (hk : Loose lk h ks os F' A') (hF : ∀ x ∈ F', x ∈ F) (haF : a ∉ F') (nF : F'.Nodup)
    (hA : ∀ x ∈ A', x ∈ A) (nA : A'.Nodup) (hc : h1.cells = h.cells) (hlen : h.arrs.length ≤ h1.arrs.length)
    (hfr : ∀ x < h.arrs.length, x ∉ A → h1.arrs[x]? = h.arrs[x]?) (harr : ∀ x ∈ A', h1.arrs[x]? = h.arrs[x]?)
    (hs : h1.arrs[s.arr]? = some ar') (hl : s.len ≤ ar'.length) (hv : ar'.take s.len = os) (hsA : s.arr ∉ A')
    (hsw : s.arr ∈ A ∨ h.arrs.length ≤ s.arr) :
    SimL lk pp h a F A (.ok (.node l ks, b)) (((h1.put a ⟨l, P, s⟩).setParents ((h1.put a ⟨l, P, s⟩).vals s) a).bind fun h => .ok (h, b)) := by
  have haF0 : a ∈ F := ho.1.root_mem
  have hlt : a < h1.cells.length := by rw [hc]; exact ho.1.bound.1 a haF0
  have hvals : (h1.put a ⟨l, P, s⟩).vals s = os := by rw [vals_eq (show (h1.put a ⟨l, P, s⟩).arrs[s.arr]? = some ar' from hs), hv]
  obtain ⟨h2, e, e1, e2⟩ := setParents_spec os (h1.put a ⟨l, P, s⟩) a (by
    intro o ho'
    obtain ⟨x, hx, rfl⟩ := hk.addrs o ho'
    exact ⟨x, rfl, by simp only [put_length, hc]; exact hk.bound.1 x hx⟩)
  have hsome : ∀ x, some x ∈ os → x ∈ F' := fun x hx => by
    obtain ⟨y, hy, e⟩ := hk.addrs _ hx
    cases e; exact hy
  have hne : ∀ x ∈ F', x ≠ a := fun x hx e => haF (e ▸ hx)
  have hk2 : Loose lk (h1.put a ⟨l, P, s⟩) ks os F' A' :=
    hk.frame (fun x hx => .of_eq (by rw [put_ne _ (hne x hx), hc])) harr
  have hk3 := hk2.repar nF e2 (fun _ h => h) (fun _ _ h => h) (fun x _ => by rw [e1])
  rw [hvals, e]
  refine ⟨h2, a :: F', s.arr :: A', rfl, ⟨⟨⟨l, P, s⟩, ar', F', A', ?_, rfl, hP, ?_, hl, ?_, rfl, rfl⟩, ?_, ?_⟩, ?_, ?_, ?_⟩
  · rw [e2.other a fun hm => haF (hsome a hm), put_same _ hlt]
  · rw [e1]; exact hs
  · rw [hv]; exact hk3
  · exact List.nodup_cons.2 ⟨haF, nF⟩
  · exact List.nodup_cons.2 ⟨hsA, nA⟩
  · refine ⟨by rw [e2.len]; simp [hc], by rw [e1]; exact hlen, fun x hx hn => ?_, fun x hx hn => by rw [e1]; exact hfr x hx hn⟩
    rw [e2.other x fun hm => hn (hF x (hsome x hm)), put_ne _ (fun e => hn ((show x = a from e) ▸ haF0)), hc]
  · intro x hx
    rcases List.mem_cons.1 hx with rfl | hx
    · exact .inl haF0
    · exact .inl (hF x hx)
  · intro x hx
    rcases List.mem_cons.1 hx with rfl | hx
    · exact hsw
    · exact .inl (hA x hx)

/-- A node with a chosen child. -/
structure At (lk : Bool) (pp : Option Nat) (h : Heap α V) (a : Nat) (F A : List Nat) (l : Lexeme α V) (ka : List (PN α V)) (kc : PN α V) (kb : List (PN α V)) where
  p : Cell α V
  ar : List (Option Nat)
  oa : List (Option Nat)
  x : Nat
  ob : List (Option Nat)
  c : Cell α V
  arc : List (Option Nat)
  oc : List (Option Nat)
  Fa : List Nat
  Fc : List Nat
  Fb : List Nat
  Aa : List Nat
  Ac : List Nat
  Ab : List Nat
  cell : h.cells[a]? = some p
  lx : p.lx = l
  arr : h.arrs[p.C.arr]? = some ar
  fits : p.C.len ≤ ar.length
  len : p.C.len = (ka ++ kc :: kb).length
  vals : h.vals p.C = oa ++ some x :: ob
  oaLen : oa.length = ka.length
  link : lk = true → p.P = pp
  before : Reps lk h ka a oa Fa Aa
  after : Reps lk h kb a ob Fb Ab
  ccell : h.cells[x]? = some c
  clx : c.lx = kc.lx
  carr : h.arrs[c.C.arr]? = some arc
  cfits : c.C.len ≤ arc.length
  cvals : h.vals c.C = oc
  kids : Reps lk h kc.kids x oc Fc Ac
  hF : F = a :: (Fa ++ (x :: Fc ++ Fb))
  hA : A = p.C.arr :: (Aa ++ (c.C.arr :: Ac ++ Ab))

theorem at_of {lk pp} {h : Heap α V} {a F A l ka kc kb} (ho : Rep lk h (.node l (ka ++ kc :: kb)) pp a F A) :
    Nonempty (At lk pp h a F A l ka kc kb) := by
  obtain ⟨p, ar, F', A', h1, h2, h3, h4, h5, h6, rfl, rfl⟩ := ho
  obtain ⟨oa, o2, Fa, F2, Aa, A2, g1, g2, e1, rfl, rfl⟩ := h6.split
  obtain ⟨x, ob, F1, A1, Fb, Ab, rfl, g3, g4, rfl, rfl⟩ := g2
  obtain ⟨lc, kk⟩ := kc
  obtain ⟨c, arc, Fc, Ac, k1, k2, _, k4, k5, k6, rfl, rfl⟩ := g3
  have hl := h6.length
  refine ⟨⟨p, ar, oa, x, ob, c, arc, arc.take c.C.len, Fa, Fc, Fb, Aa, Ac, Ab, h1, h2, h4, h5, ?_, ?_, ?_, h3, g1, g4, k1, k2, k4, k5, ?_, k6, ?_, ?_⟩⟩
  · rw [← h6.length]; simp; omega
  · rw [vals_eq h4, e1]
  · exact g1.length
  · rw [vals_eq k4]
  · simp
  · simp

theorem getIdx_cell {c : Cell α V} {i : Int} {k n : Nat} (hn : c.C.len = n) (hs : Sel n i k) :
    getIdx c i = ((k : Int), (n : Int), true) := by
  subst hn
  obtain ⟨h1, h2⟩ := hs
  unfold getIdx
  have : (if i < 0 then (c.C.len : Int) + i else i) = k := by split <;> omega
  simp only [this]
  simp [h1]

theorem getIdx_cell_out {c : Cell α V} {i : Int} {n : Nat} (hn : c.C.len = n) (hs : OutOfRange n i) :
    ∃ j l, getIdx c i = (j, l, false) := by
  subst hn
  refine ⟨if i < 0 then (c.C.len : Int) + i else i, c.C.len, ?_⟩
  unfold getIdx
  simp only
  congr 2
  rw [Bool.and_eq_false_iff]
  unfold OutOfRange at hs
  simp only [decide_eq_false_iff_not]
  split <;> omega

theorem Rep.cell {lk : Bool} {h : Heap α V} {a F A l ks p} (ho : Rep lk h (.node l ks) p a F A) :
    ∃ c ar, h.cells[a]? = some c ∧ c.lx = l ∧ c.C.len = ks.length ∧ h.arrs[c.C.arr]? = some ar ∧ c.C.len ≤ ar.length := by
  obtain ⟨p, ar, F', A', h1, h2, _, h4, h5, h6, rfl, rfl⟩ := ho
  refine ⟨p, ar, h1, h2, ?_, h4, h5⟩
  have := h6.length
  simp at this; omega

variable [DecidableEq α]

/-- Either the index is out of range or it selects a child. -/
theorem sel_cases {h : Heap α V} {lk pp a F A l ks} (ho : Own lk h pp a (.node l ks) F A) (i : Int) :
    (∃ c, h.cells[a]? = some c ∧ (∃ j l, getIdx c i = (j, l, false)) ∧ OutOfRange ks.length i) ∨
    ∃ ka kc kb, ks = ka ++ kc :: kb ∧ Sel (ka ++ kc :: kb).length i ka.length ∧ ∃ x : At lk pp h a F A l ka kc kb,
      getIdx x.p i = ((ka.length : Int), ((ka ++ kc :: kb).length : Int), true) := by
  rcases Tree.sel_or_out ks.length i with ⟨k, hk⟩ | hout
  · obtain ⟨ka, kc, kb, rfl, rfl⟩ := Tree.sel_split hk
    obtain ⟨x⟩ := at_of ho.1
    exact .inr ⟨ka, kc, kb, rfl, hk, x, getIdx_cell x.len hk⟩
  · obtain ⟨c, ar, h1, _, h3, _⟩ := ho.1.cell
    exact .inl ⟨c, h1, getIdx_cell_out h3 hout, hout⟩

namespace At
variable {lk : Bool} {pp : Option Nat} {h : Heap α V} {a : Nat} {F A : List Nat} {l : Lexeme α V} {ka : List (PN α V)} {kc : PN α V} {kb : List (PN α V)}

omit [DecidableEq α] in
theorem index (x : At lk pp h a F A l ka kc kb) : Tree.index (h.vals x.p.C) (ka.length : Int) = .ok (some x.x) := by
  rw [x.vals, ← x.oaLen]
  exact Tree.index_mid _ _ _

omit [DecidableEq α] in
theorem rest (x : At lk pp h a F A l ka kc kb) : (h.vals x.p.C).drop ((ka.length : Int) + 1).toNat = x.ob := by
  rw [x.vals, ← x.oaLen, show ((x.oa.length : Int) + 1).toNat = x.oa.length + 1 from by omega]
  simp [List.drop_append]

omit [DecidableEq α] in
theorem uptoLen (x : At lk pp h a F A l ka kc kb) : (x.p.C.upto (ka.length : Int)).len = ka.length := by
  simp [Slice.upto]

omit [DecidableEq α] in
theorem uptoVals (x : At lk pp h a F A l ka kc kb) : x.ar.take (x.p.C.upto (ka.length : Int)).len = x.oa := by
  rw [x.uptoLen]
  have h1 := x.vals
  rw [vals_eq x.arr] at h1
  have h2 := congrArg (List.take ka.length) h1
  rw [List.take_take, ← x.oaLen] at h2
  have := x.len
  simp only [List.length_append, List.length_cons] at this
  have := x.oaLen
  rw [Nat.min_eq_left (by omega), List.take_left] at h2
  rw [← x.oaLen]; exact h2

omit [DecidableEq α] in
theorem uptoFits (x : At lk pp h a F A l ka kc kb) : (x.p.C.upto (ka.length : Int)).len ≤ x.ar.length := by
  rw [x.uptoLen]
  have := x.len
  have := x.fits
  simp only [List.length_append, List.length_cons] at *
  omega
omit [DecidableEq α] in
theorem arrMem (x : At lk pp h a F A l ka kc kb) : x.p.C.arr ∈ A := (congrArg (fun L => x.p.C.arr ∈ L) x.hA).mpr (by simp)

omit [DecidableEq α] in
/-- What is needed at the end of an operation that works in the arrays of the node and of the chosen child. -/
theorem spliced (x : At lk pp h a F A l ka kc kb) (ho : Own lk h pp a (.node l (ka ++ kc :: kb)) F A) {h1 : Heap α V} {s : Slice}
    {F' A' : List Nat} (hF : F'.Sublist (x.Fa ++ (x.x :: x.Fc ++ x.Fb)))
    (hA : A'.Sublist (x.Aa ++ (x.Ac ++ x.Ab)))
    (hfr : ∀ y < h.arrs.length, y ≠ x.p.C.arr → y ≠ x.c.C.arr → h1.arrs[y]? = h.arrs[y]?)
    (hsw : s.arr = x.p.C.arr ∨ h.arrs.length ≤ s.arr) :
    (∀ y ∈ F', y ∈ F) ∧ a ∉ F' ∧ F'.Nodup ∧ (∀ y ∈ A', y ∈ A) ∧ A'.Nodup ∧
      (∀ y < h.arrs.length, y ∉ A → h1.arrs[y]? = h.arrs[y]?) ∧ (∀ y ∈ A', h1.arrs[y]? = h.arrs[y]?) ∧
      s.arr ∉ A' ∧ (s.arr ∈ A ∨ h.arrs.length ≤ s.arr) := by
  have nF := ho.2.1
  have nA := ho.2.2
  obtain ⟨p, ar, oa, xx, ob, c, arc, oc, Fa, Fc, Fb, Aa, Ac, Ab, cell, lx, arr, fits, len, vals, oaLen, link, before, after, ccell, clx, carr, cfits, cvals, kids, rfl, rfl⟩ := x
  simp only at *
  have nF := List.nodup_cons.1 nF
  have nA := List.nodup_cons.1 nA
  have hA2 : A'.Sublist (Aa ++ (c.C.arr :: Ac ++ Ab)) := hA.trans (.append (.refl _) (.append (List.sublist_cons_self ..) (.refl _)))
  have hcA : c.C.arr ∉ A' := by
    intro hm
    have := nA.2
    rw [List.nodup_append] at this
    rcases List.mem_append.1 (hA.subset hm) with h | h
    · exact this.2.2 _ h _ (by simp) rfl
    · exact (List.nodup_cons.1 this.2.1).1 h
  have hpA : p.C.arr ∉ A' := fun hm => nA.1 (hA2.subset hm)
  refine ⟨fun y hy => List.mem_cons_of_mem _ (hF.subset hy), fun hm => nF.1 (hF.subset hm), hF.nodup nF.2,
    fun y hy => List.mem_cons_of_mem _ (hA2.subset hy), hA2.nodup nA.2, ?_, ?_, ?_, ?_⟩
  · intro y hy hn
    exact hfr y hy (fun e => hn (by rw [show y = _ from e]; simp)) (fun e => hn (by rw [show y = _ from e]; simp))
  · intro y hy
    refine hfr y (ho.1.bound.2 y (List.mem_cons_of_mem _ (hA2.subset hy))) (fun e => hpA ?_) (fun e => hcA ?_)
    · rw [← show y = _ from e]; exact hy
    · rw [← show y = _ from e]; exact hy
  · rcases hsw with e | e
    · rw [e]; exact hpA
    · intro hm
      have := ho.1.bound.2 _ (List.mem_cons_of_mem _ (hA2.subset hm))
      omega
  · rcases hsw with e | e
    · left; rw [e]; simp
    · exact .inr e

omit [DecidableEq α] in
/-- The end of an operation that works in the arrays of the node and of the chosen child. -/
theorem splice {β : Type} (x : At lk pp h a F A l ka kc kb) (b : β) (ho : Own lk h pp a (.node l (ka ++ kc :: kb)) F A) {h1 : Heap α V} {s : Slice}
    {ks' os' F' A'} {ar' : List (Option Nat)} {l' : Lexeme α V}
    (hk : Reps lk h ks' a os' F' A') (hF : F'.Sublist (x.Fa ++ (x.x :: x.Fc ++ x.Fb)))
    (hA : A'.Sublist (x.Aa ++ (x.Ac ++ x.Ab))) (hc : h1.cells = h.cells) (hlen : h.arrs.length ≤ h1.arrs.length)
    (hfr : ∀ y < h.arrs.length, y ≠ x.p.C.arr → y ≠ x.c.C.arr → h1.arrs[y]? = h.arrs[y]?)
    (hs : h1.arrs[s.arr]? = some ar') (hl : s.len ≤ ar'.length) (hv : ar'.take s.len = os')
    (hsw : s.arr = x.p.C.arr ∨ h.arrs.length ≤ s.arr) :
    SimL lk pp h a F A (.ok (.node l' ks', b)) (.ok (h1.put a ⟨l', x.p.P, s⟩, b)) := by
  obtain ⟨a1, a2, a3, a4, a5, a6, a7, a8, a9⟩ := x.spliced ho hF hA hfr hsw
  exact finish b ho x.link hk a1 a2 a3 a4 a5 hc hlen a6 a7 hs hl hv a8 a9

omit [DecidableEq α] in
/-- The same when the parent links of the children are set at the end. -/
theorem spliceS {β : Type} (x : At lk pp h a F A l ka kc kb) (b : β) (ho : Own lk h pp a (.node l (ka ++ kc :: kb)) F A) {h1 : Heap α V} {s : Slice}
    {ks' os' F' A'} {ar' : List (Option Nat)} {l' : Lexeme α V}
    (hk : Loose lk h ks' os' F' A') (hF : F'.Sublist (x.Fa ++ (x.x :: x.Fc ++ x.Fb)))
    (hA : A'.Sublist (x.Aa ++ (x.Ac ++ x.Ab))) (hc : h1.cells = h.cells) (hlen : h.arrs.length ≤ h1.arrs.length)
    (hfr : ∀ y < h.arrs.length, y ≠ x.p.C.arr → y ≠ x.c.C.arr → h1.arrs[y]? = h.arrs[y]?)
    (hs : h1.arrs[s.arr]? = some ar') (hl : s.len ≤ ar'.length) (hv : ar'.take s.len = os')
    (hsw : s.arr = x.p.C.arr ∨ h.arrs.length ≤ s.arr) :
    SimL lk pp h a F A (.ok (.node l' ks', b))
      (((h1.put a ⟨l', x.p.P, s⟩).setParents ((h1.put a ⟨l', x.p.P, s⟩).vals s) a).bind fun h => .ok (h, b)) := by
  obtain ⟨a1, a2, a3, a4, a5, a6, a7, a8, a9⟩ := x.spliced ho hF hA hfr hsw
  exact finishS b ho x.link hk a1 a2 a3 a4 a5 hc hlen a6 a7 hs hl hv a8 a9

omit [DecidableEq α] in
/-- The two calls of `append` in `PromoteChildrenOf` and `PromoteChild`. -/
theorem appends (x : At lk pp h a F A l ka kc kb) (grow) (ho : Own lk h pp a (.node l (ka ++ kc :: kb)) F A) :
    ∃ g q h' s' ar', h.append grow x.c.C x.ob = (g, q) ∧ g.append grow (x.p.C.upto (ka.length : Int)) (g.vals q) = (h', s') ∧
      h'.cells = h.cells ∧ h.arrs.length ≤ h'.arrs.length ∧
      (∀ y < h.arrs.length, y ≠ x.p.C.arr → y ≠ x.c.C.arr → h'.arrs[y]? = h.arrs[y]?) ∧
      h'.arrs[s'.arr]? = some ar' ∧ s'.len ≤ ar'.length ∧ ar'.take s'.len = x.oa ++ x.oc ++ x.ob ∧
      (s'.arr = x.p.C.arr ∨ h.arrs.length ≤ s'.arr) := by
  have hne : x.p.C.arr ≠ x.c.C.arr := by
    have h1 := (congrArg List.Nodup x.hA).mp ho.2.2
    have h2 := (List.nodup_cons.1 h1).1
    intro e
    exact h2 (by rw [e]; simp)
  have hlt : x.p.C.arr < h.arrs.length := (List.getElem?_eq_some_iff.1 x.arr).1
  obtain ⟨g, q, aq, f, f1, f2, f3, f4, f5, f6, f7, f8⟩ := append_spec grow h x.ob x.carr x.cfits
  have hp : g.arrs[(x.p.C.upto (ka.length : Int)).arr]? = some x.ar := by
    rw [← x.arr]
    exact f8 _ hlt hne
  obtain ⟨h', s', ar', e, e1, e2, e3, e4, e5, e6, e7, e8⟩ := append_spec grow g (s := x.p.C.upto (ka.length : Int)) (g.vals q) hp x.uptoFits
  refine ⟨g, q, h', s', ar', f, e, e1.trans f1, by omega, ?_, e2, e3, ?_, ?_⟩
  · intro y hy h1 h2
    rw [e8 y (by omega) h1, f8 y hy h2]
  · rw [e4, x.uptoVals, vals_eq f2, f4, ← vals_eq x.carr, x.cvals, List.append_assoc]
  · exact e6.imp id (fun e => by omega)
end At

theorem removeChild_sim (grow) {h : Heap α V} {lk pp a t F A} (ho : Own lk h pp a t F A) (i : Int) :
    SimL lk pp h a F A (Tree.removeChild t i) (removeChild grow h a i) := by
  obtain ⟨l, ks⟩ := t
  rcases sel_cases ho i with ⟨c, hc, ⟨j, n, hg⟩, hout⟩ | ⟨ka, kc, kb, rfl, hs, x, hg⟩
  · rw [Tree.removeChild_out (show OutOfRange (PN.node l ks).kids.length i from hout)]
    simp only [removeChild, deref_some hc, Out.bind_ok, hg]
    exact SimL.ok _ ho
  · rw [Tree.removeChild_sel hs]
    simp only [removeChild, deref_some x.cell, Out.bind_ok, hg]
    have key := x.before.append x.after
    have hFs : (x.Fa ++ x.Fb).Sublist (x.Fa ++ (x.x :: x.Fc ++ x.Fb)) := .append (.refl _) (List.sublist_append_right ..)
    have hAs : (x.Aa ++ x.Ab).Sublist (x.Aa ++ (x.Ac ++ x.Ab)) := .append (.refl _) (List.sublist_append_right ..)
    by_cases he : (ka.length : Int) = ((ka ++ kc :: kb).length : Int) - 1
    · rw [if_pos he]
      have hb : kb = [] := by
        simp at he
        exact List.length_eq_zero_iff.1 (by omega)
      subst hb
      obtain ⟨e1, e2, e3⟩ := x.after
      have hx := x.splice (s := x.p.C.upto (ka.length : Int)) (l' := l) true ho key hFs hAs rfl (Nat.le_refl _) (fun _ _ _ _ => rfl)
        x.arr x.uptoFits (by rw [x.uptoVals, e1]; simp) (.inl rfl)
      simpa [x.lx] using hx
    · rw [if_neg he]
      obtain ⟨h', s', ar', e, e1, e2, e3, e4, e5, e6, e7, e8⟩ := append_spec grow h (s := x.p.C.upto (ka.length : Int)) x.ob x.arr x.uptoFits
      rw [x.rest, e]
      have hx := x.splice (s := s') (l' := l) true ho key hFs hAs e1 e7 (fun y hy h1 _ => e8 y hy h1) e2 e3 (by rw [e4, x.uptoVals])
        (e6.imp id (fun e => by omega))
      simpa [x.lx] using hx

theorem promoteChildrenOf_sim (grow) {h : Heap α V} {a t F A} (ho : Owns h a t F A) (i : Int) :
    Sim h a F A (Tree.promoteChildrenOf t i) (promoteChildrenOf grow h a i) := by
  obtain ⟨l, ks⟩ := t
  rcases sel_cases ho i with ⟨c, hc, ⟨j, n, hg⟩, hout⟩ | ⟨ka, kc, kb, rfl, hs, x, hg⟩
  · rw [Tree.promoteChildrenOf_out (show OutOfRange (PN.node l ks).kids.length i from hout)]
    simp only [promoteChildrenOf, deref_some hc, Out.bind_ok, hg]
    exact SimL.ok _ ho
  · rw [Tree.promoteChildrenOf_sel hs]
    simp only [promoteChildrenOf, deref_some x.cell, Out.bind_ok, hg, x.index, deref_some x.ccell]
    have key := (x.before.append (x.kids.anyP a)).append x.after
    have hFs : (x.Fa ++ x.Fc ++ x.Fb).Sublist (x.Fa ++ (x.x :: x.Fc ++ x.Fb)) := by
      rw [List.append_assoc]
      exact .append (.refl _) (.append (List.sublist_cons_self ..) (.refl _))
    have hAs : (x.Aa ++ x.Ac ++ x.Ab).Sublist (x.Aa ++ (x.Ac ++ x.Ab)) := by rw [List.append_assoc]; exact .refl _
    by_cases he : (ka.length : Int) = ((ka ++ kc :: kb).length : Int) - 1
    · rw [if_pos he]
      have hb : kb = [] := by
        simp at he
        exact List.length_eq_zero_iff.1 (by omega)
      subst hb
      have e0 : x.ob = [] := x.after.1
      obtain ⟨h', s', ar', e, e1, e2, e3, e4, e5, e6, e7, e8⟩ := append_spec grow h (s := x.p.C.upto (ka.length : Int)) (h.vals x.c.C) x.arr x.uptoFits
      rw [e]
      have hx := x.splice (s := s') (l' := l) true ho key hFs hAs e1 e7 (fun y hy h1 _ => e8 y hy h1) e2 e3
        (by rw [e4, x.uptoVals, x.cvals, e0]; simp) (e6.imp id (fun e => by omega))
      simpa [x.lx] using hx
    · rw [if_neg he]
      obtain ⟨g, q, h', s', ar', f, e, e1, e2, e3, e4, e5, e6, e7⟩ := x.appends grow ho
      rw [x.rest, f]
      simp only
      rw [e]
      have hx := x.splice (s := s') (l' := l) true ho key hFs hAs e1 e2 e3 e4 e5 e6 e7
      simpa [x.lx] using hx

omit [DecidableEq α] in
theorem SimL.seq {β γ : Type} {lk pp} {h h1 : Heap α V} {a F A t o m} {b : β} (hs : SimL lk pp h a F A (.ok (t, b)) (.ok (h1, b)))
    (hk : ∀ F' A', Own lk h1 pp a t F' A' → SimL (β := γ) lk pp h1 a F' A' o m) : SimL lk pp h a F A o m := by
  obtain ⟨h', F', A', e, ho, hf, w1, w2⟩ := hs
  cases e
  have := hk F' A' ho
  match o, this with
  | .panic, this => exact this
  | .fuel, this => exact this
  | .ok (t'', c), ⟨h'', F'', A'', e', ho', hf', w1', w2'⟩ =>
    exact ⟨h'', F'', A'', e', ho', Frame.trans hf hf' w1 w2, Within.trans w1 w1' hf.1, Within.trans w2 w2' hf.2.1⟩

omit [DecidableEq α] in
theorem Rep.addrs {lk : Bool} {h : Heap α V} {t p a F A c} (hr : Rep lk h t p a F A) (hc : h.cells[a]? = some c) :
    ∀ o ∈ h.vals c.C, ∃ x ∈ F, o = some x := by
  obtain ⟨l, ks⟩ := t
  obtain ⟨c', ar, F', A', h1, h2, h3, h4, h5, h6, rfl, rfl⟩ := hr
  rw [hc] at h1
  cases h1
  rw [vals_eq h4]
  intro o ho
  obtain ⟨x, hx, e⟩ := h6.addrs o ho
  exact ⟨x, by simp [hx], e⟩

theorem promoteChild_sim (grow) {h : Heap α V} {lk pp a t F A} (ho : Own lk h pp a t F A) (i : Int) :
    SimL lk pp h a F A (Tree.promoteChild t i) (promoteChild grow h a i) := by
  obtain ⟨l, ks⟩ := t
  rcases sel_cases ho i with ⟨c, hc, ⟨j, n, hg⟩, hout⟩ | ⟨ka, kc, kb, rfl, hs, x, hg⟩
  · rw [Tree.promoteChild_out (show OutOfRange (PN.node l ks).kids.length i from hout)]
    simp only [promoteChild, deref_some hc, Out.bind_ok, hg]
    exact SimL.ok _ ho
  · rw [Tree.promoteChild_sel hs]
    simp only [promoteChild, deref_some x.cell, Out.bind_ok, hg, x.index, deref_some x.ccell]
    have key := (x.before.loose.append x.kids.loose).append x.after.loose
    have hFs : (x.Fa ++ x.Fc ++ x.Fb).Sublist (x.Fa ++ (x.x :: x.Fc ++ x.Fb)) := by
      rw [List.append_assoc]
      exact .append (.refl _) (.append (List.sublist_cons_self ..) (.refl _))
    have hAs : (x.Aa ++ x.Ac ++ x.Ab).Sublist (x.Aa ++ (x.Ac ++ x.Ab)) := by rw [List.append_assoc]; exact .refl _
    by_cases he : (ka.length : Int) + 1 < ((ka ++ kc :: kb).length : Int)
    · simp only [if_pos he]
      obtain ⟨g, q, h', s', ar', f, e, e1, e2, e3, e4, e5, e6, e7⟩ := x.appends grow ho
      rw [x.rest, f]
      simp only
      rw [e]
      have hx := x.spliceS (s := s') (l' := kc.lx) true ho key hFs hAs e1 e2 e3 e4 e5 e6 e7
      simpa [x.clx] using hx
    · simp only [if_neg he]
      have hb : kb = [] := by
        simp at he
        exact List.length_eq_zero_iff.1 (by omega)
      subst hb
      have e0 : x.ob = [] := x.after.1
      obtain ⟨h', s', ar', e, e1, e2, e3, e4, e5, e6, e7, e8⟩ := append_spec grow h (s := x.p.C.upto (ka.length : Int)) (h.vals x.c.C) x.arr x.uptoFits
      rw [e]
      have hx := x.spliceS (s := s') (l' := kc.lx) true ho key hFs hAs e1 e7 (fun y hy h1 _ => e8 y hy h1) e2 e3
        (by rw [e4, x.uptoVals, x.cvals, e0]; simp) (e6.imp id (fun e => by omega))
      simpa [x.clx] using hx

theorem promoteSingleChild_sim (grow) {h : Heap α V} {lk pp a t F A} (ho : Own lk h pp a t F A) :
    SimL lk pp h a F A (Tree.promoteSingleChild t) (promoteSingleChild grow h a) := by
  obtain ⟨l, ks⟩ := t
  obtain ⟨c, ar, h1, h2, h3, h4, h5⟩ := ho.1.cell
  simp only [promoteSingleChild, Tree.promoteSingleChild, deref_some h1, Out.bind_ok, h3]
  by_cases e : ks.length = 1
  · rw [if_pos e, if_pos (show (PN.node l ks).kids.length = 1 from e)]
    exact (promoteChild_sim grow ho 0).map fun _ => true
  · rw [if_neg e, if_neg (show ¬ (PN.node l ks).kids.length = 1 from e)]
    exact SimL.ok _ ho

theorem replaceWithChild_sim {h : Heap α V} {a t F A} (ho : Owns h a t F A) (i : Int) :
    Sim h a F A (Tree.replaceWithChild t i) (replaceWithChild h a i) := by
  obtain ⟨l, ks⟩ := t
  rcases sel_cases ho i with ⟨c, hc, ⟨j, n, hg⟩, hout⟩ | ⟨ka, kc, kb, rfl, hs, x, hg⟩
  · rw [Tree.replaceWithChild_out (show OutOfRange (PN.node l ks).kids.length i from hout)]
    simp only [replaceWithChild, deref_some hc, Out.bind_ok, hg]
    exact SimL.ok _ ho
  · rw [Tree.replaceWithChild_sel hs]
    simp only [replaceWithChild, deref_some x.cell, Out.bind_ok, hg, x.index, deref_some x.ccell]
    have nF := ho.2.1
    have nA := ho.2.2
    obtain ⟨p, ar, oa, xx, ob, c, arc, oc, Fa, Fc, Fb, Aa, Ac, Ab, cell, lx, arr, fits, len, vals, oaLen, link, before, after, ccell, clx, carr, cfits, cvals, kids, rfl, rfl⟩ := x
    simp only at *
    have nF := List.nodup_cons.1 nF
    have nF2 := (List.nodup_append.1 (List.nodup_append.1 nF.2).2.1).1
    have nA2 := (List.nodup_append.1 (List.nodup_append.1 (List.nodup_cons.1 nA).2).2.1).1
    obtain ⟨lc, kk⟩ := kc
    rw [show c = ⟨lc, c.P, c.C⟩ from by cases c; simp_all [PN.lx]]
    refine finish true ho (by simp) (kids.anyP a) ?_ ?_ (List.nodup_cons.1 nF2).2 ?_ (List.nodup_cons.1 nA2).2 rfl (Nat.le_refl _) (fun _ _ _ => rfl) (fun _ _ => rfl)
      carr cfits (by rw [← vals_eq carr, cvals]) (List.nodup_cons.1 nA2).1 (.inl (by simp))
    · intro y hy; simp [hy]
    · intro hm; exact nF.1 (by simp [hm])
    · intro y hy; simp [hy]

/-! ### Operations without a result -/

/-- `Sim` for computations without a result. -/
def Sim1 (lk : Bool) (pp : Option Nat) (h : Heap α V) (a : Nat) (F A : List Nat) (o : Out (PN α V)) (m : Out (Heap α V)) : Prop :=
  SimL lk pp h a F A (o.bind fun t => .ok (t, ())) (m.bind fun h => .ok (h, ()))

omit [DecidableEq α] in
theorem Sim1.with {β : Type} {lk pp} {h : Heap α V} {a F A o m} (b : β) (hs : Sim1 lk pp h a F A o m) :
    SimL lk pp h a F A (o.bind fun t => .ok (t, b)) (m.bind fun h => .ok (h, b)) := by
  have := SimL.map (fun _ => b) hs
  cases o <;> cases m <;> simpa [Out.bind] using this

omit [DecidableEq α] in
theorem SimL.forget {β : Type} {lk pp} {h : Heap α V} {a F A} {o : Out (PN α V × β)} {m : Out (Heap α V × β)} (hs : SimL lk pp h a F A o m) :
    Sim1 lk pp h a F A (o.bind fun r => .ok r.1) (m.bind fun r => .ok r.1) := by
  have := SimL.map (fun _ => ()) hs
  cases o <;> cases m <;> simpa [Sim1, Out.bind] using this

omit [DecidableEq α] in
theorem relabel {β : Type} {lk pp} {h : Heap α V} {a F A l ks c} (b : β) (l') (ho : Own lk h pp a (.node l ks) F A) (hc : h.cells[a]? = some c) :
    SimL lk pp h a F A (.ok (.node l' ks, b)) (.ok (h.put a { c with lx := l' }, b)) := by
  obtain ⟨⟨c', ar, F', A', h1, h2, h3, h4, h5, h6, rfl, rfl⟩, nF, nA⟩ := ho
  have ho : Own lk h pp a (.node l ks) (a :: F') (c'.C.arr :: A') := ⟨⟨c', ar, F', A', h1, h2, h3, h4, h5, h6, rfl, rfl⟩, nF, nA⟩
  rw [hc] at h1
  cases h1
  exact finish b ho h3 h6 (fun x hx => by simp [hx]) (List.nodup_cons.1 nF).1 (List.nodup_cons.1 nF).2 (fun x hx => by simp [hx])
    (List.nodup_cons.1 nA).2 rfl (Nat.le_refl _) (fun _ _ _ => rfl) (fun _ _ => rfl) h4 h5 rfl (List.nodup_cons.1 nA).1 (.inl (by simp))

theorem promoteChildValue_sim (grow) {h : Heap α V} {lk pp a t F A} (ho : Own lk h pp a t F A) (i : Int) :
    Sim1 lk pp h a F A (Tree.promoteChildValue t i) (promoteChildValue grow h a i) := by
  obtain ⟨l, ks⟩ := t
  obtain ⟨c, ar, h1, h2, h3, h4, h5⟩ := ho.1.cell
  obtain ⟨j, hj⟩ : ∃ j, (if i < 0 then (ks.length : Int) + i else i) = j := ⟨_, rfl⟩
  simp only [promoteChildValue, Tree.promoteChildValue, deref_some h1, Out.bind_ok, h3, PN.kids, hj]
  by_cases e : j ≥ 0 ∧ (ks.length : Int) > j
  · simp only [if_pos e]
    obtain ⟨ka, kc, kb, rfl, hk⟩ := Tree.sel_split (show Spec.Sel ks.length j j.toNat from by unfold Spec.Sel; omega)
    obtain ⟨x⟩ := at_of ho.1
    have hj : j = (ka.length : Int) := by omega
    subst hj
    have hcx : c = x.p := Option.some.inj (h1.symm.trans x.cell)
    subst hcx
    rw [x.index, Tree.index_mid]
    simp only [Out.bind_ok, deref_some x.ccell]
    rw [x.lx, x.clx]
    exact SimL.seq (relabel () ⟨l.kind, kc.lx.val, kc.lx.line, kc.lx.col⟩ ho x.cell) fun F' A' ho' => (removeChild_sim grow ho' (ka.length : Int)).forget
  · simp only [if_neg e]
    exact (removeChild_sim grow ho j).forget

/-! ### Reading -/

theorem childAt_eq {h : Heap α V} {lk pp a t F A} (ho : Own lk h pp a t F A) (i : Int) (symbs : List α) :
    childAt h a i symbs = Tree.childAt t i symbs := by
  obtain ⟨l, ks⟩ := t
  rcases sel_cases ho i with ⟨c, hc, ⟨j, n, hg⟩, hout⟩ | ⟨ka, kc, kb, rfl, hs, x, hg⟩
  · rw [Tree.childAt_out _ (show OutOfRange (PN.node l ks).kids.length i from hout)]
    simp only [childAt, deref_some hc, Out.bind_ok, hg]
  · rw [Tree.childAt_sel _ hs]
    simp only [childAt, deref_some x.cell, Out.bind_ok, hg, x.index, deref_some x.ccell, x.clx]
    congr 1
    rw [Bool.eq_iff_iff, List.any_eq_true, decide_eq_true_iff]
    constructor
    · rintro ⟨y, hy, e⟩
      have := of_decide_eq_true e
      subst this
      exact hy
    · exact fun hm => ⟨_, hm, decide_eq_true rfl⟩

theorem childIs_eq {h : Heap α V} {lk pp a t F A} (ho : Own lk h pp a t F A) (i : Int) (kind : α) :
    childIs h a i kind = Tree.childIs t i kind := by
  obtain ⟨l, ks⟩ := t
  rcases sel_cases ho i with ⟨c, hc, ⟨j, n, hg⟩, hout⟩ | ⟨ka, kc, kb, rfl, hs, x, hg⟩
  · rw [Tree.childIs_out _ (show OutOfRange (PN.node l ks).kids.length i from hout)]
    simp only [childIs, deref_some hc, Out.bind_ok, hg]
  · rw [Tree.childIs_sel _ hs]
    have hself : getIdx x.p (ka.length : Int) = ((ka.length : Int), ((ka ++ kc :: kb).length : Int), true) :=
      getIdx_cell x.len (Tree.sel_self (by simp))
    simp only [childIs, child, deref_some x.cell, Out.bind_ok, hg, hself, x.index, deref_some x.ccell, x.clx]
    rfl

theorem bindAssoc {A B C : Type} (x : Out A) (f : A → Out B) (g : B → Out C) : (x.bind f).bind g = x.bind fun a => (f a).bind g := by
  cases x <;> rfl

theorem removeAllLoop_sim (grow) (symbols : List α) : ∀ (n : Nat) {lk pp} {h : Heap α V} {a t F A} (_ : Own lk h pp a t F A) (i : Nat),
    Sim1 lk pp h a F A (Tree.removeAllLoop symbols n t i) (removeAllLoop grow symbols n h a i)
  | 0, lk, pp, h, a, t, F, A, ho, i => rfl
  | n + 1, lk, pp, h, a, .node l ks, F, A, ho, i => by
    obtain ⟨c, ar, h1, h2, h3, h4, h5⟩ := ho.1.cell
    simp only [removeAllLoop, Tree.removeAllLoop, deref_some h1, Out.bind_ok, h3]
    by_cases e : i < ks.length
    · rw [if_pos e, if_pos (show i < (PN.node l ks).kids.length from e), childAt_eq ho]
      have : Sel ks.length (i : Int) i := ⟨e, .inl rfl⟩
      obtain ⟨ka, kc, kb, rfl, rfl⟩ := Tree.sel_split this
      rw [Tree.childAt_sel _ this]
      simp only [Out.bind_ok]
      split
      · unfold Sim1
        have := SimL.bind (removeChild_sim grow ho (ka.length : Int)) (k := fun r => (Tree.removeAllLoop symbols n r.1 ka.length).bind fun t => .ok (t, ()))
          (kH := fun r => (removeAllLoop grow symbols n r.1 a ka.length).bind fun h => .ok (h, ()))
          (fun t' b h' F' A' ho' => removeAllLoop_sim grow symbols n ho' ka.length)
        rw [bindAssoc, bindAssoc]; exact this
      · exact removeAllLoop_sim grow symbols n ho _
    · rw [if_neg e, if_neg (show ¬ i < (PN.node l ks).kids.length from e)]
      exact SimL.ok () ho

/-! ### Operations that make a new slice of children -/

omit [DecidableEq α] in
theorem dropFlags_heap {c : Cell α V} {p : PN α V} (hc : c.C.len = p.kids.length) : ∀ (is : List Int) (drop : List Bool) (ln : Nat) (d : List Bool),
    Tree.dropFlags p drop is = .ok d → ∃ n, dropFlags c drop ln is = .ok (d, n) := by
  intro is
  induction is with
  | nil => intro drop ln d h; cases h; exact ⟨ln, rfl⟩
  | cons i is ih =>
    intro drop ln d h
    have hg : getIdx c i = Tree.getIdx p i := by unfold getIdx Tree.getIdx; rw [hc]
    rw [Tree.dropFlags] at h
    rw [dropFlags, hg]
    match hgp : Tree.getIdx p i with
    | (_, _, false) => rw [hgp] at h; exact ih _ _ _ h
    | (j, _, true) =>
      rw [hgp] at h
      obtain ⟨b, hb, h⟩ := Out.bind_eq_ok.1 h
      simp only [hb, Out.bind_ok]
      cases b with
      | true => exact ih _ _ _ h
      | false => exact ih _ _ _ h

/-- While a new slice is filled: `os` are its contents. -/
structure Filling (h h1 : Heap α V) (s : Slice) (os : List (Option Nat)) : Prop where
  len : h.arrs.length ≤ h1.arrs.length
  fr : ∀ y < h.arrs.length, h1.arrs[y]? = h.arrs[y]?
  own : h.arrs.length ≤ s.arr
  arr : ∃ ar, h1.arrs[s.arr]? = some ar ∧ s.len ≤ ar.length ∧ ar.take s.len = os

omit [DecidableEq α] in
theorem Filling.start (h : Heap α V) (n : Nat) : Filling h (h.newArr (List.replicate n none)) ⟨h.arrs.length, 0⟩ [] :=
  ⟨by simp [Heap.newArr], fun y hy => by simp [Heap.newArr, List.getElem?_append_left hy], Nat.le_refl _,
    _, by simp [Heap.newArr]; rfl, by simp, by simp⟩

omit [DecidableEq α] in
theorem Filling.append {h h1 : Heap α V} {s os} (grow) (vs) (hf : Filling h h1 s os) :
    Filling h (h1.append grow s vs).1 (h1.append grow s vs).2 (os ++ vs) ∧ (h1.append grow s vs).1.cells = h1.cells := by
  obtain ⟨l, fr, own, ar, h1a, h2a, h3a⟩ := hf
  obtain ⟨h', s', ar', e, e1, e2, e3, e4, e5, e6, e7, e8⟩ := append_spec grow h1 vs h1a h2a
  rw [e]
  refine ⟨⟨by simp only; omega, ?_, ?_, ar', e2, e3, by rw [e4, h3a]⟩, e1⟩
  · intro y hy
    rw [e8 y (by omega) (by omega), fr y hy]
  · simp only
    omega

omit [DecidableEq α] in
theorem keepUnflagged_heap (grow) {lk} {h : Heap α V} {c : Cell α V} {ar} (ha : h.arrs[c.C.arr]? = some ar) (p : PN α V) (a : Nat) :
    ∀ (drop : List Bool) (h1 : Heap α V) (s : Slice) (os oa ob : List (Option Nat)) (ka kb : List (PN α V)) (F A : List Nat),
      Filling h h1 s os → h1.cells = h.cells → ar.take c.C.len = oa ++ ob → p.kids = ka ++ kb → oa.length = ka.length →
      drop.length = kb.length → Reps lk h kb a ob F A →
      ∃ ks h' s' os' F' A', Tree.keepUnflagged p ka.length drop = .ok ks ∧ keepUnflagged grow c h1 s ka.length drop = .ok (h', s') ∧
        Filling h h' s' (os ++ os') ∧ h'.cells = h.cells ∧ Reps lk h ks a os' F' A' ∧ F'.Sublist F ∧ A'.Sublist A := by
  intro drop
  induction drop with
  | nil =>
    intro h1 s os oa ob ka kb F A hf hc hv hk hl hd hr
    exact ⟨[], h1, s, [], [], [], rfl, rfl, by simpa using hf, hc, ⟨rfl, rfl, rfl⟩, List.nil_sublist _, List.nil_sublist _⟩
  | cons b drop ih =>
    intro h1 s os oa ob ka kb F A hf hc hv hk hl hd hr
    cases kb with
    | nil => simp at hd
    | cons k kb =>
      obtain ⟨x, ob, F1, A1, F2, A2, rfl, hr1, hr2, rfl, rfl⟩ := hr
      have hlt := (List.getElem?_eq_some_iff.1 ha).1
      have e1 : ka.length + 1 = (ka ++ [k]).length := by simp
      simp only [Tree.keepUnflagged, keepUnflagged]
      cases b with
      | true =>
        obtain ⟨ks, h', s', os', F', A', i1, i2, i3, i4, i5, i6, i7⟩ := ih h1 s os (oa ++ [some x]) ob (ka ++ [k]) kb F2 A2 hf hc (by simp [hv]) (by simp [hk])
          (by simp [hl]) (by simpa using hd) hr2
        rw [e1]
        exact ⟨ks, h', s', os', F', A', i1, i2, i3, i4, i5, i6.trans (List.sublist_append_right ..), i7.trans (List.sublist_append_right ..)⟩
      | false =>
        have hx : Tree.index (h1.vals c.C) (ka.length : Int) = .ok (some x) := by
          rw [vals_eq (show h1.arrs[c.C.arr]? = some ar from (hf.fr _ hlt).trans ha), hv, ← hl]
          exact Tree.index_mid _ _ _
        have hxp : Tree.index p.kids (ka.length : Int) = .ok k := by
          rw [hk]
          exact Tree.index_mid _ _ _
        obtain ⟨hf', hc'⟩ := hf.append grow [some x]
        obtain ⟨ks, h', s', os', F', A', i1, i2, i3, i4, i5, i6, i7⟩ := ih _ _ _ (oa ++ [some x]) ob (ka ++ [k]) kb F2 A2 hf' (hc'.trans hc) (by simp [hv]) (by simp [hk])
          (by simp [hl]) (by simpa using hd) hr2
        simp only [hx, hxp, Out.bind_ok, e1, i1, i2, Bool.false_eq_true, if_false]
        exact ⟨k :: ks, h', s', some x :: os', F1 ++ F', A1 ++ A', rfl, rfl, by simpa using i3, i4, ⟨x, os', F1, A1, F', A', rfl, hr1, i5, rfl, rfl⟩,
          .append (.refl _) i6, .append (.refl _) i7⟩

theorem removeChildren_sim (grow) {h : Heap α V} {lk pp a t F A} (ho : Own lk h pp a t F A) (is : List Int) :
    Sim1 lk pp h a F A (Tree.removeChildren t is) (removeChildren grow h a is) := by
  obtain ⟨l, ks⟩ := t
  obtain ⟨⟨c, ar, F', A', h1, h2, h3, h4, h5, h6, rfl, rfl⟩, nF, nA⟩ := ho
  have ho : Own lk h pp a (.node l ks) (a :: F') (c.C.arr :: A') := ⟨⟨c, ar, F', A', h1, h2, h3, h4, h5, h6, rfl, rfl⟩, nF, nA⟩
  have hlen : c.C.len = (PN.node l ks).kids.length := by
    have := h6.length
    simp only [List.length_take] at this
    simp only [PN.kids]
    omega
  obtain ⟨d, hd, hdl, -⟩ := Tree.dropFlags_eq (.node l ks) is (List.replicate (PN.node l ks).kids.length false) (by simp)
  obtain ⟨n, hn⟩ := dropFlags_heap hlen is _ c.C.len d hd
  obtain ⟨ks', h', s', os', F1, A1, i1, i2, i3, i4, i5, i6, i7⟩ := keepUnflagged_heap grow h4 (.node l ks) a d _ _ [] [] _ [] ks F' A' (Filling.start h n) rfl rfl rfl rfl hdl h6
  simp only [Tree.removeChildren, removeChildren, deref_some h1, Out.bind_ok, hd, hlen, hn, show Tree.keepUnflagged (.node l ks) 0 d = _ from i1]
  simp only [hlen] at hn
  rw [hn]
  simp only [Out.bind_ok, show keepUnflagged grow c _ _ 0 d = _ from i2]
  have nF := List.nodup_cons.1 nF
  have nA := List.nodup_cons.1 nA
  obtain ⟨b1, b2, b3, ar', b4, b5, b6⟩ := i3
  have hb := ho.1.bound.2
  subst h2
  refine finish () ho h3 i5 (fun y hy => by simp [i6.subset hy]) (fun hm => nF.1 (i6.subset hm)) (i6.nodup nF.2) (fun y hy => by simp [i7.subset hy]) (i7.nodup nA.2)
    i4 b1 (fun y hy _ => b2 y hy) (fun y hy => b2 y (hb y (by simp [i7.subset hy]))) b4 b5 (by simpa using b6) ?_ (.inr b3)
  intro hm
  have := hb _ (List.mem_cons_of_mem _ (i7.subset hm))
  omega

omit [DecidableEq α] in
theorem countGrand_ok {lk} {h : Heap α V} : ∀ {ks : List (PN α V)} {p os F A}, Reps lk h ks p os F A → ∃ n, countGrand h os = .ok n
  | [], _, _, _, _, hr => by
    obtain ⟨rfl, _⟩ := hr
    exact ⟨0, rfl⟩
  | .node l kk :: ks, _, _, _, _, hr => by
    obtain ⟨x, os, F1, A1, F2, A2, rfl, hr1, hr2, rfl, rfl⟩ := hr
    obtain ⟨c, ar, e, _⟩ := hr1.cell
    obtain ⟨n, hn⟩ := countGrand_ok hr2
    exact ⟨c.C.len + n, by simp [countGrand, deref_some e, hn]⟩

omit [DecidableEq α] in
theorem grandLoop_heap (grow) {lk} {h : Heap α V} (a : Nat) : ∀ (ks : List (PN α V)) (h1 : Heap α V) (s : Slice) (os ob : List (Option Nat)) (F A : List Nat),
    Filling h h1 s os → Repar h h1 os a → Reps lk h ks a ob F A →
    ∃ h' s' os' F' A', grandLoop grow a h1 s ob = .ok (h', s') ∧ Filling h h' s' (os ++ os') ∧ Repar h h' (os ++ os') a ∧
      Loose lk h (ks.flatMap PN.kids) os' F' A' ∧ F'.Sublist F ∧ A'.Sublist A
  | [], h1, s, os, ob, F, A, hf, hal, hr => by
    obtain ⟨rfl, rfl, rfl⟩ := hr
    exact ⟨h1, s, [], [], [], rfl, by simpa using hf, by simpa using hal, ⟨rfl, rfl, rfl⟩, .refl _, .refl _⟩
  | .node l kk :: ks, h1, s, os, ob, F, A, hf, hal, hr => by
    obtain ⟨x, ob, F1, A1, F2, A2, rfl, hr1, hr2, rfl, rfl⟩ := hr
    obtain ⟨c, ar, Fc, Ac, k1, k2, _, k4, k5, k6, rfl, rfl⟩ := hr1
    obtain ⟨c', g1, g2, g3, _⟩ := hal.alike x c k1
    have hlt := (List.getElem?_eq_some_iff.1 k4).1
    have hv : h1.vals c'.C = ar.take c.C.len := by rw [g3]; exact vals_eq ((hf.fr _ hlt).trans k4)
    obtain ⟨h2, e, e1, e2⟩ := setParents_spec (h1.vals c'.C) h1 a (by
      rw [hv]
      intro o ho
      obtain ⟨y, hy, e⟩ := k6.addrs o ho
      exact ⟨y, e, by rw [hal.len]; exact k6.bound.1 y hy⟩)
    have hv2 : h2.vals c'.C = ar.take c.C.len := by rw [← hv]; simp [Heap.vals, e1]
    have hf2 : Filling h h2 s os := by
      obtain ⟨b1, b2, b3, b4⟩ := hf
      exact ⟨by rw [e1]; exact b1, by rw [e1]; exact b2, b3, by rw [e1]; exact b4⟩
    obtain ⟨hf3, hc3⟩ := hf2.append grow (h2.vals c'.C)
    have hal2 : Repar h h2 (os ++ h2.vals c'.C) a := by rw [hv2, ← hv]; exact hal.trans e2
    obtain ⟨h', s', os', F', A', i1, i2, i3, i6, i7, i8⟩ := grandLoop_heap grow a ks (h2.append grow s (h2.vals c'.C)).1 (h2.append grow s (h2.vals c'.C)).2 _ ob F2 A2 hf3
      (hal2.cells hc3) hr2
    refine ⟨h', s', ar.take c.C.len ++ os', Fc ++ F', Ac ++ A', ?_, ?_, ?_, ?_, ?_, ?_⟩
    · simp only [grandLoop, deref_some g1, Out.bind_ok, e]
      exact i1
    · rw [hv2, List.append_assoc] at i2; exact i2
    · rw [hv2, List.append_assoc] at i3; exact i3
    · simpa [PN.kids] using k6.loose.append i6
    · exact .append (List.sublist_cons_self ..) i7
    · exact .append (List.sublist_cons_self ..) i8

theorem promoteGrandChildren_sim (grow) {h : Heap α V} {lk pp a t F A} (ho : Own lk h pp a t F A) :
    Sim1 lk pp h a F A (.ok (Tree.promoteGrandChildren t)) (promoteGrandChildren grow h a) := by
  obtain ⟨l, ks⟩ := t
  obtain ⟨⟨c, ar, F', A', h1, h2, h3, h4, h5, h6, rfl, rfl⟩, nF, nA⟩ := ho
  have ho : Own lk h pp a (.node l ks) (a :: F') (c.C.arr :: A') := ⟨⟨c, ar, F', A', h1, h2, h3, h4, h5, h6, rfl, rfl⟩, nF, nA⟩
  obtain ⟨n, hn⟩ := countGrand_ok h6
  obtain ⟨h', s', os', F1, A1, i1, i2, i3, i6, i7, i8⟩ := grandLoop_heap grow a ks (h.newArr (List.replicate n none)) ⟨h.arrs.length, 0⟩ [] _ F' A' (Filling.start h n)
    (.refl _ _ _ rfl) h6
  have nF := List.nodup_cons.1 nF
  have nA := List.nodup_cons.1 nA
  obtain ⟨b1, b2, b3, ar', b4, b5, b6⟩ := i2
  have hb := ho.1.bound.2
  have hsome : ∀ x, some x ∈ [] ++ os' → x ∈ F1 := fun x hx => by
    obtain ⟨y, hy, e⟩ := i6.addrs _ (by simpa using hx)
    cases e; exact hy
  have g1 : h'.cells[a]? = some c := by rw [i3.other a fun hm => nF.1 (i7.subset (hsome a hm))]; exact h1
  rw [show Tree.promoteGrandChildren (.node l ks) = .node l (ks.flatMap PN.kids) from by unfold Tree.promoteGrandChildren; rw [Tree.foldl_kids]; rfl]
  simp only [promoteGrandChildren, deref_some h1, Out.bind_ok, vals_eq h4, hn, i1, deref_some g1, Sim1]
  subst h2
  have hk := i6.repar (i7.nodup nF.2) i3 (fun o h => by simpa using h) (fun x _ h => by simpa using h) (fun y hy => b2 y (hb y (by simp [i8.subset hy])))
  refine finishP () ho h3 hk (fun y hy => by simp [i7.subset hy]) (fun hm => nF.1 (i7.subset hm)) (i7.nodup nF.2) (fun y hy => by simp [i8.subset hy]) (i8.nodup nA.2)
    i3.len (fun y hy => i3.other y (fun hm => hy (by simp [i7.subset (hsome y hm)]))) b1 (fun y hy _ => b2 y hy) b4 b5 (by simpa using b6) ?_ (.inr b3)
  intro hm
  have := hb _ (List.mem_cons_of_mem _ (i8.subset hm))
  omega

/-- Each operation in memory does what the operation on values does. -/
theorem apply_sim (grow) (fuel : Nat) (o : Tree.ROp α) {h : Heap α V} {a t F A} (ho : Owns h a t F A) :
    Sim1 false none h a F A (o.apply fuel t) (apply grow fuel o h a) := by
  cases o with
  | promoteChild i => exact (promoteChild_sim grow ho i).forget
  | promoteChildrenOf i => exact (promoteChildrenOf_sim grow ho i).forget
  | promoteChildValue i => exact promoteChildValue_sim grow ho i
  | promoteGrandChildren => exact promoteGrandChildren_sim grow ho
  | removeAll ks => exact removeAllLoop_sim grow ks fuel ho 0
  | removeChild i => exact (removeChild_sim grow ho i).forget
  | removeChildren is => exact removeChildren_sim grow ho is
  | promoteSingleChild => exact (promoteSingleChild_sim grow ho).forget
  | replaceWithChild i => exact (replaceWithChild_sim ho i).forget

/-- The operations that keep parent links. -/
theorem apply_linked (grow) (fuel : Nat) (o : Tree.ROp α) {h : Heap α V} {p a t F A} (ho : Linked h p a t F A)
    (h1 : ∀ i, o ≠ .promoteChildrenOf i) (h2 : ∀ i, o ≠ .replaceWithChild i) :
    Sim1 true p h a F A (o.apply fuel t) (apply grow fuel o h a) := by
  cases o with
  | promoteChild i => exact (promoteChild_sim grow ho i).forget
  | promoteChildrenOf i => exact absurd rfl (h1 i)
  | promoteChildValue i => exact promoteChildValue_sim grow ho i
  | promoteGrandChildren => exact promoteGrandChildren_sim grow ho
  | removeAll ks => exact removeAllLoop_sim grow ks fuel ho 0
  | removeChild i => exact (removeChild_sim grow ho i).forget
  | removeChildren is => exact removeChildren_sim grow ho is
  | promoteSingleChild => exact (promoteSingleChild_sim grow ho).forget
  | replaceWithChild i => exact absurd rfl (h2 i)

end Verif.Spec.TreeHeap
