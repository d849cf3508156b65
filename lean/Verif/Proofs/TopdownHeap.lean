import Verif.Model.TopdownHeap
import Verif.Proofs.TreeHeapBuild
/- The top-down parser with nodes in memory does what the one with trees as values does. -/
namespace Verif.TopdownHeap
open Verif.Spec Verif.TreeHeap Verif.Spec.TreeHeap

variable {β V : Type}

theorem prefix_get {γ : Type} {L L' : List γ} (hL : L <+: L') {i : Nat} {x : γ} (h : L[i]? = some x) : L'[i]? = some x := by
  obtain ⟨t, rfl⟩ := hL
  rw [List.getElem?_append_left (List.getElem?_eq_some_iff.1 h).1, h]

/-- What is known of every node: where it starts and stops, and the tree that it is. -/
abbrev Labels (β V : Type) := List (Nat × Nat × PN β V)

/-- The nodes `os`, made before `a`, are the trees `ks` and cover what is from `i` to `j` one after another. -/
def Chain (L : Labels β V) (a : Nat) : List Nat → List (PN β V) → Nat → Nat → Prop
  | [], ks, i, j => ks = [] ∧ i = j
  | y :: os, ks, i, j => ∃ m t ks', ks = t :: ks' ∧ y < a ∧ L[y]? = some (i, m, t) ∧ i ≤ m ∧ Chain L a os ks' m j

theorem Chain.mono {L L' : Labels β V} (hL : L <+: L') {a a'} (ha : a ≤ a') : ∀ {os ks i j}, Chain L a os ks i j → Chain L' a' os ks i j
  | [], _, _, _, h => h
  | _ :: _, _, _, _, ⟨m, t, ks', e, h1, h2, h3, h4⟩ =>
    ⟨m, t, ks', e, by omega, prefix_get hL h2, h3, h4.mono hL ha⟩

/-- What is known of one node. -/
def LabC (prods : β → Option (List (List β))) (h : Heap β V) (L : Labels β V) (a : Nat) (c : Cell β V) : Prop :=
  c.P = none ∧ ∃ os i j t, h.arrs[c.C.arr]? = some (os.map some) ∧ c.C.len = os.length ∧ L[a]? = some (i, j, t) ∧ t.lx = c.lx ∧
    (((prods t.kind).isSome ∧ Chain L a os t.kids i j) ∨ (prods t.kind = none ∧ t.kids = [] ∧ os = [] ∧ j = i + 1))

/-- What is known of memory. -/
def Lab (prods : β → Option (List (List β))) (h : Heap β V) (L : Labels β V) : Prop :=
  L.length = h.cells.length ∧ (∀ a c, h.cells[a]? = some c → LabC prods h L a c) ∧
    ∀ (a b : Nat) (c d : Cell β V), h.cells[a]? = some c → h.cells[b]? = some d → c.C.arr = d.C.arr → a = b

/-- No node has its children in the array `r`. -/
def Free (h : Heap β V) (r : Nat) : Prop := ∀ (a : Nat) (c : Cell β V), h.cells[a]? = some c → c.C.arr ≠ r

/-- What may happen to memory: more nodes and arrays, and arrays are not changed or put to use. -/
def Grow (h : Heap β V) (L : Labels β V) (h' : Heap β V) (L' : Labels β V) : Prop :=
  L <+: L' ∧ h.arrs.length ≤ h'.arrs.length ∧ (∀ x < h.arrs.length, h'.arrs[x]? = h.arrs[x]?) ∧ ∀ r < h.arrs.length, Free h r → Free h' r

theorem Grow.refl (h : Heap β V) (L : Labels β V) : Grow h L h L := ⟨List.prefix_rfl, Nat.le_refl _, fun _ _ => rfl, fun _ _ h => h⟩

theorem Grow.trans {h h' h'' : Heap β V} {L L' L'' : Labels β V} (h1 : Grow h L h' L') (h2 : Grow h' L' h'' L'') : Grow h L h'' L'' :=
  ⟨h1.1.trans h2.1, Nat.le_trans h1.2.1 h2.2.1, fun x hx => (h2.2.2.1 x (by have := h1.2.1; omega)).trans (h1.2.2.1 x hx),
    fun r hr hf => h2.2.2.2 r (by have := h1.2.1; omega) (h1.2.2.2 r hr hf)⟩

/-- A response in memory is the one on values. -/
def RespOK (L : Labels β V) (pos : Nat) : Option (Topdown.Resp β V) → Option HResp → Prop
  | none, none => True
  | some r, some a => a.stop = r.stop ∧ pos ≤ r.stop ∧ L[a.node]? = some (pos, r.stop, r.tree)
  | _, _ => False

theorem RespOK.mono {L L' : Labels β V} (hL : L <+: L') {pos} : ∀ {r a}, RespOK L pos r a → RespOK L' pos r a
  | none, none, _ => trivial
  | some _, some _, ⟨h1, h2, h3⟩ => ⟨h1, h2, prefix_get hL h3⟩
  | none, some _, h => h.elim
  | some _, none, h => h.elim

/-- The memo in memory is the one on values. -/
def MemoOK (L : Labels β V) (m : Topdown.Memo β V) (hm : HMemo β) : Prop :=
  ∀ k, match m k, hm k with
    | none, none => True
    | some r, some a => RespOK L k.2 r a
    | _, _ => False

theorem MemoOK.mono {L L' : Labels β V} (hL : L <+: L') {m hm} (h : MemoOK L m hm) : MemoOK L' m hm := by
  intro k
  have := h k
  match m k, hm k, this with
  | none, none, _ => trivial
  | some _, some _, h => exact RespOK.mono hL h

/-- Memory, labels and memo fit together. -/
def Fits (prods : β → Option (List (List β))) (h : Heap β V) (L : Labels β V) (m : Topdown.Memo β V) (hm : HMemo β) : Prop :=
  Lab prods h L ∧ MemoOK L m hm

/-- The computation in memory does what the one on values does. -/
def Sim (prods : β → Option (List (List β))) (h : Heap β V) (L : Labels β V) (pos : Nat) (o : Out (Topdown.Memo β V × Option (Topdown.Resp β V)))
    (oh : Out (Heap β V × HMemo β × Option HResp)) : Prop :=
  match o with
  | .ok (m', r) => ∃ h' hm' a L', oh = .ok (h', hm', a) ∧ Fits prods h' L' m' hm' ∧ Grow h L h' L' ∧ RespOK L' pos r a
  | .panic => oh = .panic
  | .fuel => oh = .fuel

/-- The same for the recursive calls. -/
def RecSim (prods : β → Option (List (List β))) (rec : Topdown.Memo β V → β → Nat → Out (Topdown.Memo β V × Option (Topdown.Resp β V)))
    (recH : Heap β V → HMemo β → β → Nat → Out (Heap β V × HMemo β × Option HResp)) : Prop :=
  ∀ h L m hm X pos, Fits prods h L m hm → Sim prods h L pos (rec m X pos) (recH h hm X pos)

variable {prods : β → Option (List (List β))}

/-- Writing to an array that no node uses. -/
theorem Lab.store {h : Heap β V} {L : Labels β V} (hl : Lab prods h L) {r n i v} (hf : Free h r) : Lab prods (h.store ⟨r, n⟩ i v) L := by
  refine ⟨hl.1, fun a c hc => ?_, hl.2.2⟩
  obtain ⟨h1, os, i, j, t, h2, h3⟩ := hl.2.1 a c hc
  refine ⟨h1, os, i, j, t, ?_, h3⟩
  have := hf a c hc
  simp only [Heap.store]
  rw [List.getElem?_set_ne (by omega)]
  exact h2

/-- A new array. -/
theorem Lab.newArr {h : Heap β V} {L : Labels β V} (hl : Lab prods h L) (xs) : Lab prods (h.newArr xs) L ∧ Free (h.newArr xs) h.arrs.length := by
  constructor
  · refine ⟨hl.1, fun a c hc => ?_, hl.2.2⟩
    obtain ⟨h1, os, i, j, t, h2, h3⟩ := hl.2.1 a c hc
    refine ⟨h1, os, i, j, t, ?_, h3⟩
    have := (List.getElem?_eq_some_iff.1 h2).1
    simp only [Heap.newArr]
    rw [List.getElem?_append_left this]
    exact h2
  · intro a c hc
    obtain ⟨h1, os, i, j, t, h2, h3⟩ := hl.2.1 a c hc
    have := (List.getElem?_eq_some_iff.1 h2).1
    omega

/-- A new node with an array that no node uses. -/
theorem Lab.newCell {h : Heap β V} {L : Labels β V} (hl : Lab prods h L) {c : Cell β V} (hf : Free h c.C.arr) {i j t}
    (hc : LabC prods h (L ++ [(i, j, t)]) h.cells.length c) : Lab prods (h.newCell c) (L ++ [(i, j, t)]) := by
  have hcell : ∀ a d, (h.newCell c).cells[a]? = some d → h.cells[a]? = some d ∨ (a = h.cells.length ∧ d = c) := by
    intro a d hd
    simp only [Heap.newCell] at hd
    by_cases ha : a < h.cells.length
    · rw [List.getElem?_append_left ha] at hd; exact .inl hd
    · have hle := (List.getElem?_eq_some_iff.1 hd).1
      simp at hle
      have : a = h.cells.length := by omega
      subst this
      simp at hd
      exact .inr ⟨rfl, hd.symm⟩
  refine ⟨by simp [Heap.newCell, hl.1], fun a d hd => ?_, fun a b d e hd he heq => ?_⟩
  · rcases hcell a d hd with hd | ⟨rfl, rfl⟩
    · obtain ⟨h1, os, i', j', t', h2, h3, h4, h5, h6⟩ := hl.2.1 a d hd
      have hp : L <+: L ++ [(i, j, t)] := List.prefix_append _ _
      refine ⟨h1, os, i', j', t', h2, h3, prefix_get hp h4, h5, ?_⟩
      rcases h6 with ⟨h6, h7⟩ | h6
      · exact .inl ⟨h6, h7.mono hp (Nat.le_refl _)⟩
      · exact .inr h6
    · exact hc
  · rcases hcell a d hd with hd' | ⟨rfl, rfl⟩
    · rcases hcell b e he with he' | ⟨rfl, rfl⟩
      · exact hl.2.2 a b d e hd' he' heq
      · exact absurd heq (hf a d hd')
    · rcases hcell b e he with he' | ⟨rfl, h2⟩
      · exact absurd heq.symm (hf b e he')
      · rfl

/-- Loop over a production: `os` are the nodes found before, `h0` and `L0` what there was before the array was made. -/
theorem prodLoop_sim {rec recH} (hrec : RecSim prods rec recH) {h0 : Heap β V} {L0 : Labels β V} {n : Nat} : ∀ (p : List β) (os : List Nat) (h : Heap β V) L m hm pos,
    Fits prods h L m hm → Grow h0 L0 h L → h0.arrs.length < h.arrs.length → Free h h0.arrs.length →
    h.arrs[h0.arrs.length]? = some (os.map some ++ List.replicate p.length none) →
    match Topdown.prodLoop rec m p pos with
    | .ok (m', r) => ∃ h' hm' L' e, prodLoop recH ⟨h0.arrs.length, n⟩ os.length h hm p pos = .ok (h', hm', e) ∧ Fits prods h' L' m' hm' ∧ Grow h0 L0 h' L' ∧ L <+: L' ∧
        match r with
        | none => e = none
        | some (ks, j) => e = some j ∧ pos ≤ j ∧ h0.arrs.length < h'.arrs.length ∧ Free h' h0.arrs.length ∧ ∃ os', os'.length = p.length ∧
            h'.arrs[h0.arrs.length]? = some ((os ++ os').map some) ∧ Chain L' h'.cells.length os' ks pos j
    | .panic => prodLoop recH ⟨h0.arrs.length, n⟩ os.length h hm p pos = .panic
    | .fuel => prodLoop recH ⟨h0.arrs.length, n⟩ os.length h hm p pos = .fuel := by
  intro p
  induction p with
  | nil =>
    intro os h L m hm pos hF hG hlt hfr harr
    exact ⟨h, hm, L, some pos, rfl, hF, hG, List.prefix_rfl, rfl, Nat.le_refl _, hlt, hfr, [], rfl, by simpa using harr, rfl, rfl⟩
  | cons X p ih =>
    intro os h L m hm pos hF hG hlt hfr harr
    have h1 := hrec h L m hm X pos hF
    simp only [Topdown.prodLoop, prodLoop]
    match hr : rec m X pos, h1 with
    | .panic, h1 => simp only [Sim] at h1; rw [h1]; rfl
    | .fuel, h1 => simp only [Sim] at h1; rw [h1]; rfl
    | .ok (m1, r), ⟨hp1, hm1, a, L1, e1, hF1, hG1, hR⟩ =>
      rw [e1]
      simp only [Out.bind_ok]
      match r, a, hR with
      | none, none, _ => exact ⟨hp1, hm1, L1, none, rfl, hF1, hG.trans hG1, hG1.1, rfl⟩
      | some r, some a, ⟨hs, hle, hl⟩ =>
        simp only
        have harr1 : hp1.arrs[h0.arrs.length]? = some (os.map some ++ none :: List.replicate p.length none) := by
          rw [hG1.2.2.1 _ hlt, harr]; rfl
        have hfr1 := hG1.2.2.2 _ hlt hfr
        have hlt1 : h0.arrs.length < hp1.arrs.length := by have := hG1.2.1; omega
        have hF2 : Fits prods (hp1.store ⟨h0.arrs.length, n⟩ os.length (some a.node)) L1 m1 hm1 := ⟨hF1.1.store hfr1, hF1.2⟩
        have hG2 : Grow h0 L0 (hp1.store ⟨h0.arrs.length, n⟩ os.length (some a.node)) L1 := by
          have g := hG.trans hG1
          refine ⟨g.1, by simpa [Heap.store] using g.2.1, fun x hx => ?_, fun r hr hf => g.2.2.2 r hr hf⟩
          simp only [Heap.store]
          rw [List.getElem?_set_ne (by omega)]
          exact g.2.2.1 x hx
        have harr2 : (hp1.store ⟨h0.arrs.length, n⟩ os.length (some a.node)).arrs[h0.arrs.length]? =
            some ((os ++ [a.node]).map some ++ List.replicate p.length none) := by
          simp only [Heap.store, harr1, Option.getD_some]
          rw [List.getElem?_set_self hlt1]
          simp
        have h2 := ih (os ++ [a.node]) _ L1 m1 hm1 a.stop hF2 hG2 (by simpa [Heap.store] using hlt1) hfr1 harr2
        rw [List.length_append, List.length_singleton, hs] at h2
        rw [hs]
        match hq : Topdown.prodLoop rec m1 p r.stop, h2 with
        | .panic, h2 => exact h2
        | .fuel, h2 => exact h2
        | .ok (m2, none), ⟨h', hm', L', e, e2, hF', hG', hL', he⟩ =>
          exact ⟨h', hm', L', e, e2, hF', hG', hG1.1.trans hL', he⟩
        | .ok (m2, some (ks, j)), ⟨h', hm', L', e, e2, hF', hG', hL', he, hj, hlt', hfr', os', ho, ha, hc⟩ =>
          refine ⟨h', hm', L', e, e2, hF', hG', hG1.1.trans hL', he, by omega, hlt', hfr', a.node :: os', by simp [ho], by simpa using ha, ?_⟩
          refine ⟨r.stop, r.tree, ks, rfl, ?_, prefix_get hL' hl, hle, hc⟩
          have := (List.getElem?_eq_some_iff.1 (prefix_get hL' hl)).1
          rwa [hF'.1.1] at this

/-- One production. -/
theorem acceptProd_sim {ev : V} {rec recH} (hrec : RecSim prods rec recH) {s : β} (hs : (prods s).isSome) {pos : Nat} {h : Heap β V} {L m hm} (p : List β)
    (hF : Fits prods h L m hm) :
    match Topdown.prodLoop rec m p pos with
    | .ok (m', none) => ∃ h' hm' L', acceptProd ev recH s pos h hm p = .ok (h', hm', none) ∧ Fits prods h' L' m' hm' ∧ Grow h L h' L'
    | .ok (m', some (ks, j)) => ∃ h' hm' L' a, acceptProd ev recH s pos h hm p = .ok (h', hm', some a) ∧ Fits prods h' L' m' hm' ∧ Grow h L h' L' ∧
        RespOK L' pos (some ⟨.node ⟨s, ev, -1, 0⟩ ks, j⟩) (some a)
    | .panic => acceptProd ev recH s pos h hm p = .panic
    | .fuel => acceptProd ev recH s pos h hm p = .fuel := by
  obtain ⟨hl, hfr⟩ := hF.1.newArr (List.replicate p.length none)
  have hG : Grow h L (h.newArr (List.replicate p.length none)) L := by
    refine ⟨List.prefix_rfl, by simp [Heap.newArr], fun x hx => ?_, fun r hr hf => hf⟩
    simp only [Heap.newArr]
    exact List.getElem?_append_left hx
  have := prodLoop_sim hrec (n := p.length) p [] _ L m hm pos ⟨hl, hF.2⟩ hG (by simp [Heap.newArr]) hfr (by simp [Heap.newArr])
  simp only [acceptProd]
  match hq : Topdown.prodLoop rec m p pos, this with
  | .panic, h2 => simp only [List.length_nil] at h2; rw [h2]; rfl
  | .fuel, h2 => simp only [List.length_nil] at h2; rw [h2]; rfl
  | .ok (m2, none), ⟨h', hm', L', e, e2, hF', hG', hL', he⟩ =>
    simp only [List.length_nil] at e2
    simp only at he
    subst he
    rw [e2]
    exact ⟨h', hm', L', rfl, hF', hG'⟩
  | .ok (m2, some (ks, j)), ⟨h', hm', L', e, e2, hF', hG', hL', he, hj, hlt', hfr', os', ho, ha, hc⟩ =>
    simp only [List.length_nil] at e2
    subst he
    rw [e2]
    refine ⟨_, hm', L' ++ [(pos, j, .node ⟨s, ev, -1, 0⟩ ks)], _, rfl, ⟨hF'.1.newCell hfr' ?_, hF'.2.mono (List.prefix_append _ _)⟩, ?_, rfl, hj, ?_⟩
    · refine ⟨rfl, os', pos, j, .node ⟨s, ev, -1, 0⟩ ks, by simpa using ha, ho.symm, ?_, rfl, .inl ⟨hs, hc.mono (List.prefix_append _ _) (Nat.le_refl _)⟩⟩
      rw [← hF'.1.1]
      simp
    · refine ⟨hG'.1.trans (List.prefix_append _ _), hG'.2.1, hG'.2.2.1, fun r hr hf => ?_⟩
      have h3 := hG'.2.2.2 r hr hf
      intro a c hc
      simp only [Heap.newCell] at hc
      by_cases hal : a < h'.cells.length
      · rw [List.getElem?_append_left hal] at hc
        exact h3 a c hc
      · have hle := (List.getElem?_eq_some_iff.1 hc).1
        simp at hle
        have : a = h'.cells.length := by omega
        subst this
        simp at hc
        subst hc
        simp only
        omega
    · simp only
      rw [← hF'.1.1]
      simp

theorem prodsLoop_sim {ev : V} {rec recH} (hrec : RecSim prods rec recH) {s : β} (hs : (prods s).isSome) {len pos : Nat} {all : Bool} :
    ∀ (ps : List (List β)) (h : Heap β V) L m hm, Fits prods h L m hm →
      Sim prods h L pos (Topdown.prodsLoop ev rec len s pos all m ps) (prodsLoop ev recH len s pos all h hm ps) := by
  intro ps
  induction ps with
  | nil => intro h L m hm hF; exact ⟨h, hm, none, L, rfl, hF, Grow.refl _ _, trivial⟩
  | cons p ps ih =>
    intro h L m hm hF
    have next : ∀ h' L' m' hm', Fits prods h' L' m' hm' → Grow h L h' L' →
        Sim prods h L pos (Topdown.prodsLoop ev rec len s pos all m' ps) (prodsLoop ev recH len s pos all h' hm' ps) := by
      intro h' L' m' hm' hF' hG'
      have := ih h' L' m' hm' hF'
      match hq : Topdown.prodsLoop ev rec len s pos all m' ps, this with
      | .panic, h => exact h
      | .fuel, h => exact h
      | .ok (m2, r), ⟨h2, hm2, a, L2, e, h3, h4, h5⟩ => exact ⟨h2, hm2, a, L2, e, h3, hG'.trans h4, h5⟩
    have h1 := acceptProd_sim (ev := ev) hrec hs (pos := pos) p hF
    simp only [Topdown.prodsLoop, prodsLoop]
    match hq : Topdown.prodLoop rec m p pos, h1 with
    | .panic, h2 => rw [h2]; rfl
    | .fuel, h2 => rw [h2]; rfl
    | .ok (m2, none), ⟨h', hm', L', e2, hF', hG'⟩ =>
      rw [e2]
      exact next h' L' m2 hm' hF' hG'
    | .ok (m2, some (ks, j)), ⟨h', hm', L', a, e2, hF', hG', hR⟩ =>
      rw [e2]
      simp only [Out.bind_ok]
      have hstop : a.stop = j := hR.1
      rw [hstop]
      split
      · exact ⟨h', hm', some a, L', rfl, hF', hG', hR⟩
      · exact next h' L' m2 hm' hF' hG'

/-! ### What the labels say -/

/-- The array of a node. -/
def arrOf (h : Heap β V) (x : Nat) : Nat := ((h.cells[x]?).map (·.C.arr)).getD 0

theorem Chain.get {L : Labels β V} {a} : ∀ {os ks i j}, Chain L a os ks i j → ∀ y ∈ os, y < a ∧ ∃ i' m t, L[y]? = some (i', m, t)
  | [], _, _, _, _ => by simp
  | y :: os, _, _, _, ⟨m, t, ks', e, h1, h2, h3, h4⟩ => by
    intro z hz
    rcases List.mem_cons.1 hz with rfl | hz
    · exact ⟨h1, _, _, _, h2⟩
    · exact h4.get z hz

theorem Chain.le {L : Labels β V} {a} : ∀ {os ks i j}, Chain L a os ks i j → i ≤ j
  | [], _, _, _, ⟨_, e⟩ => Nat.le_of_eq e
  | _ :: _, _, _, _, ⟨m, t, ks', e, h1, h2, h3, h4⟩ => Nat.le_trans h3 h4.le

/-- A labelled node is the tree that its label says. Nodes that occur in it were made before it and cover a part of what it covers, and
one that occurs twice covers nothing. -/
theorem Lab.rep {h : Heap β V} {L : Labels β V} (hl : Lab prods h L) : ∀ a i j t, L[a]? = some (i, j, t) →
    ∃ F A, Rep false h t none a F A ∧ A = F.map (arrOf h) ∧ i ≤ j ∧ (t.fringe fun s => (prods s).isNone).length = j - i ∧
      ∀ x ∈ F, x ≤ a ∧ ∃ i' j' t', L[x]? = some (i', j', t') ∧ i ≤ i' ∧ i' ≤ j' ∧ j' ≤ j ∧ (2 ≤ F.count x → i' = j') := by
  intro a
  induction a using Nat.strongRecOn with
  | _ a ih =>
    intro i j t hL
    have hlt : a < h.cells.length := by rw [← hl.1]; exact (List.getElem?_eq_some_iff.1 hL).1
    have hcell : h.cells[a]? = some h.cells[a] := List.getElem?_eq_getElem hlt
    generalize h.cells[a] = c at hcell
    obtain ⟨_, os, i', j', t', harr, hlen, hL', hlx, hk⟩ := hl.2.1 a c hcell
    rw [hL] at hL'
    cases hL'
    have hao : arrOf h a = c.C.arr := by simp [arrOf, hcell]
    cases t with
    | node l ks =>
      have hlx : l = c.lx := hlx
      rcases hk with ⟨hp, hc⟩ | ⟨hp, hks, hos, hj⟩
      · have hc : Chain L a os ks i j := hc
        have hp : (prods l.kind).isSome := hp
        have kids : ∀ (os : List Nat) ks i, Chain L a os ks i j → ∃ F A, Reps false h ks a (os.map some) F A ∧ A = F.map (arrOf h) ∧ i ≤ j ∧
            (PN.fringes (fun s => (prods s).isNone) ks).length = j - i ∧
            ∀ x ∈ F, x < a ∧ ∃ i' j' t', L[x]? = some (i', j', t') ∧ i ≤ i' ∧ i' ≤ j' ∧ j' ≤ j ∧ (2 ≤ F.count x → i' = j') := by
          intro os
          induction os with
          | nil =>
            rintro ks i ⟨rfl, rfl⟩
            exact ⟨[], [], ⟨rfl, rfl, rfl⟩, rfl, Nat.le_refl _, by simp [PN.fringes], by simp⟩
          | cons y os ihs =>
            rintro ks i ⟨m, t, ks', rfl, h1, h2, h3, h4⟩
            obtain ⟨F1, A1, r1, a1, l1, f1, x1⟩ := ih y h1 i m t h2
            obtain ⟨F2, A2, r2, a2, l2, f2, x2⟩ := ihs ks' m h4
            refine ⟨F1 ++ F2, A1 ++ A2, ⟨y, os.map some, F1, A1, F2, A2, rfl, r1.anyP _, r2, rfl, rfl⟩, by simp [a1, a2], by omega, ?_, ?_⟩
            · simp only [PN.fringes, List.length_append, f1, f2]
              omega
            · intro x hx
              rcases List.mem_append.1 hx with hx | hx
              · obtain ⟨q1, i', j', t', q2, q3, q4, q5, q6⟩ := x1 x hx
                refine ⟨by omega, i', j', t', q2, q3, q4, by omega, fun h2c => ?_⟩
                by_cases hx2 : x ∈ F2
                · obtain ⟨_, i2, j2, t2, p2, p3, _⟩ := x2 x hx2
                  rw [q2] at p2; cases p2
                  omega
                · rw [List.count_append, List.count_eq_zero_of_not_mem hx2] at h2c
                  exact q6 (by omega)
              · obtain ⟨q1, i', j', t', q2, q3, q4, q5, q6⟩ := x2 x hx
                refine ⟨q1, i', j', t', q2, by omega, q4, q5, fun h2c => ?_⟩
                by_cases hx1 : x ∈ F1
                · obtain ⟨_, i2, j2, t2, p2, p3, p4, p5, _⟩ := x1 x hx1
                  rw [q2] at p2; cases p2
                  omega
                · rw [List.count_append, List.count_eq_zero_of_not_mem hx1] at h2c
                  exact q6 (by omega)
        obtain ⟨F, A, r, ha, hle, hf, hx⟩ := kids os ks i hc
        refine ⟨a :: F, c.C.arr :: A, ⟨c, os.map some, F, A, hcell, hlx.symm, by simp, harr, by simp [hlen], ?_, rfl, rfl⟩, by simp [ha, hao], hle, ?_, ?_⟩
        · rw [List.take_of_length_le (by simp [hlen])]
          exact r
        · have : (prods l.kind).isNone = false := by
            cases hq : prods l.kind with
            | none => rw [hq] at hp; cases hp
            | some _ => rfl
          simp only [PN.fringe, this]
          exact hf
        · intro x hxm
          rcases List.mem_cons.1 hxm with rfl | hxm
          · refine ⟨Nat.le_refl _, i, j, _, hL, Nat.le_refl _, hle, Nat.le_refl _, fun h2c => ?_⟩
            rw [List.count_cons_self, List.count_eq_zero_of_not_mem (fun hm => by have := (hx x hm).1; omega)] at h2c
            omega
          · obtain ⟨q1, i', j', t', q2, q3, q4, q5, q6⟩ := hx x hxm
            refine ⟨by omega, i', j', t', q2, q3, q4, q5, fun h2c => q6 ?_⟩
            rwa [List.count_cons_of_ne (by omega)] at h2c
      · have hks : ks = [] := hks
        have hp : prods l.kind = none := hp
        subst hks hos hj
        refine ⟨[a], [c.C.arr], ⟨c, [], [], [], hcell, hlx.symm, by simp, harr, by simp [hlen], by simp [Reps], rfl, rfl⟩, by simp [hao], by omega, ?_, ?_⟩
        · simp only [PN.fringe, Option.isNone_iff_eq_none]
          rw [if_pos (show prods l.kind = none from hp)]
          simp
        · intro x hx
          simp only [List.mem_singleton] at hx
          subst hx
          exact ⟨Nat.le_refl _, i, i + 1, _, hL, Nat.le_refl _, by omega, Nat.le_refl _, by simp⟩

variable [DecidableEq β]

theorem accept_sim (ev : V) (lxs : List (Lexeme β V)) : ∀ n (h : Heap β V) L m hm s pos all, Fits prods h L m hm →
    Sim prods h L pos (Topdown.accept ev prods lxs n m s pos all) (accept ev prods lxs n h hm s pos all) := by
  intro n
  induction n with
  | zero => intro h L m hm s pos all _; rfl
  | succ n ih =>
    intro h L m hm s pos all hF
    have hk := hF.2 (s, pos)
    simp only [Topdown.accept, accept]
    match h1 : m (s, pos), h2 : hm (s, pos), hk with
    | some r, some a, hk => exact ⟨h, hm, a, L, rfl, hF, Grow.refl _ _, hk⟩
    | none, none, _ =>
      simp only
      have hrec : RecSim prods (fun m X p => Topdown.accept ev prods lxs n m X p false) (fun h m X p => accept ev prods lxs n h m X p false) :=
        fun h L m hm X pos hF => ih h L m hm X pos false hF
      have ht : Sim prods h L pos (Topdown.tryAccept ev prods lxs (fun m X p => Topdown.accept ev prods lxs n m X p false) m s pos all)
          (tryAccept ev prods lxs (fun h m X p => accept ev prods lxs n h m X p false) h hm s pos all) := by
        simp only [Topdown.tryAccept, tryAccept]
        cases hp : prods s with
        | some ps => exact prodsLoop_sim hrec (by simp [hp]) ps h L m hm hF
        | none =>
          simp only
          cases hlx : lxs[pos]? with
          | none => exact ⟨h, hm, none, L, rfl, hF, Grow.refl _ _, trivial⟩
          | some l =>
            simp only
            split
            · rename_i hsl
              obtain ⟨hl, hfr⟩ := hF.1.newArr []
              refine ⟨_, hm, _, L ++ [(pos, pos + 1, .node l [])], rfl, ⟨?_, hF.2.mono (List.prefix_append _ _)⟩, ?_, rfl, by simp, ?_⟩
              · refine hl.newCell hfr ?_
                refine ⟨rfl, [], pos, pos + 1, .node l [], by simp [Heap.newArr], rfl, ?_, rfl, .inr ⟨?_, rfl, rfl, rfl⟩⟩
                · have : L.length = h.cells.length := hF.1.1
                  simp [Heap.newArr, ← this]
                · show prods l.kind = none
                  rw [← hsl, hp]
              · refine ⟨List.prefix_append _ _, by simp [freshNode, Heap.newCell, Heap.newArr], fun x hx => ?_, fun r hr hf => ?_⟩
                · simp only [freshNode, Heap.newCell, Heap.newArr]
                  exact List.getElem?_append_left hx
                · intro a c hc
                  simp only [freshNode, Heap.newCell, Heap.newArr] at hc
                  by_cases hal : a < h.cells.length
                  · rw [List.getElem?_append_left hal] at hc
                    exact hf a c hc
                  · have hle := (List.getElem?_eq_some_iff.1 hc).1
                    simp at hle
                    have : a = h.cells.length := by omega
                    subst this
                    simp at hc
                    subst hc
                    simp only
                    omega
              · have : L.length = h.cells.length := hF.1.1
                simp [freshNode, ← this]
            · exact ⟨h, hm, none, L, rfl, hF, Grow.refl _ _, trivial⟩
      match hq : Topdown.tryAccept ev prods lxs (fun m X p => Topdown.accept ev prods lxs n m X p false) m s pos all, ht with
      | .panic, h => simp only [Sim] at h; rw [h]; rfl
      | .fuel, h => simp only [Sim] at h; rw [h]; rfl
      | .ok (m2, r), ⟨h2, hm2, a, L2, e, h3, h4, h5⟩ =>
        rw [e]
        refine ⟨h2, _, a, L2, rfl, ⟨h3.1, fun k => ?_⟩, h4, h5⟩
        by_cases hk : k = (s, pos)
        · subst hk
          simp only [upd_same]
          exact h5
        · simp only [upd_ne _ _ hk]
          exact h3.2 k

end Verif.TopdownHeap
