import Verif.Proofs.TreeHeapNew
/-
Properties of trees in memory: parent links (C58), and that the model of package tree on values is faithful when
nodes are pointers and children slices of arrays that append may change in place (C66).

Vocabulary (Verif.Spec.TreeHeap): `Rep`, `Owns`, `Linked` say which tree a node in memory is; `Frame` what is
unchanged; `Sim`, `New`, `NewL`, `NewO` that a computation in memory does what one on values does.
`grow` is any policy for the capacity of new arrays.
-/
namespace Verif.Props.TreeHeap
open Verif.Spec Verif.Spec.TreeHeap Verif.TreeHeap

variable {α V σ : Type}

/-! ### What the specification says -/

mutual
theorem rep_links {h : Heap α V} : ∀ {t : PN α V} {p a F A}, Rep true h t p a F A →
    (∃ c, h.cells[a]? = some c ∧ c.P = p) ∧ ∀ x ∈ F, ∃ c, h.cells[x]? = some c ∧ ∀ o ∈ h.vals c.C, ∃ y d, o = some y ∧ y ∈ F ∧ h.cells[y]? = some d ∧ d.P = some x
  | .node l ks, p, a, F, A, hr => by
    obtain ⟨c, ar, F', A', h1, h2, h3, h4, h5, h6, rfl, rfl⟩ := hr
    obtain ⟨i1, i2⟩ := reps_links h6
    refine ⟨⟨c, h1, h3 rfl⟩, fun x hx => ?_⟩
    rcases List.mem_cons.1 hx with rfl | hx
    · refine ⟨c, h1, fun o ho => ?_⟩
      rw [vals_eq h4] at ho
      obtain ⟨y, d, e1, e2, e3⟩ := i1 o ho
      exact ⟨y, d, e1, by simp [e2], e3⟩
    · obtain ⟨c', e, hc⟩ := i2 x hx
      refine ⟨c', e, fun o ho => ?_⟩
      obtain ⟨y, d, e1, e2, e3⟩ := hc o ho
      exact ⟨y, d, e1, by simp [e2], e3⟩
theorem reps_links {h : Heap α V} : ∀ {ts : List (PN α V)} {p os F A}, Reps true h ts p os F A →
    (∀ o ∈ os, ∃ y d, o = some y ∧ y ∈ F ∧ h.cells[y]? = some d ∧ d.P = some p) ∧
    ∀ x ∈ F, ∃ c, h.cells[x]? = some c ∧ ∀ o ∈ h.vals c.C, ∃ y d, o = some y ∧ y ∈ F ∧ h.cells[y]? = some d ∧ d.P = some x
  | [], p, os, F, A, hr => by
    obtain ⟨rfl, rfl, rfl⟩ := hr
    simp
  | t :: ts, p, os, F, A, hr => by
    obtain ⟨a, os', F1, A1, F2, A2, rfl, h1, h2, rfl, rfl⟩ := hr
    obtain ⟨⟨c, e, ec⟩, i2⟩ := rep_links h1
    obtain ⟨j1, j2⟩ := reps_links h2
    constructor
    · intro o ho
      rcases List.mem_cons.1 ho with rfl | ho
      · exact ⟨a, c, rfl, by simp [h1.root_mem], e, ec⟩
      · obtain ⟨y, d, e1, e2, e3⟩ := j1 o ho
        exact ⟨y, d, e1, by simp [e2], e3⟩
    · intro x hx
      rcases List.mem_append.1 hx with hx | hx
      · obtain ⟨c', e, hc⟩ := i2 x hx
        refine ⟨c', e, fun o ho => ?_⟩
        obtain ⟨y, d, e1, e2, e3⟩ := hc o ho
        exact ⟨y, d, e1, by simp [e2], e3⟩
      · obtain ⟨c', e, hc⟩ := j2 x hx
        refine ⟨c', e, fun o ho => ?_⟩
        obtain ⟨y, d, e1, e2, e3⟩ := hc o ho
        exact ⟨y, d, e1, by simp [e2], e3⟩
end

/-- What `Linked` means for the fields: the root's parent link is nil and that of every child of every node of the
tree is that node. -/
theorem linked_links {h : Heap α V} {a F A} {t : PN α V} (hl : Linked h none a t F A) :
    (∃ c, h.cells[a]? = some c ∧ c.P = none) ∧ a ∈ F ∧
      ∀ x ∈ F, ∃ c, h.cells[x]? = some c ∧ ∀ o ∈ h.vals c.C, ∃ y d, o = some y ∧ y ∈ F ∧ h.cells[y]? = some d ∧ d.P = some x :=
  ⟨(rep_links hl.1).1, hl.1.root_mem, (rep_links hl.1).2⟩

theorem linked_owns {h : Heap α V} {p a F A} {t : PN α V} (hl : Linked h p a t F A) : Owns h a t F A := ⟨hl.1.unlink.anyP _, hl.2⟩

mutual
theorem rep_fun {h : Heap α V} : ∀ {t t' : PN α V} {p p' a F F' A A'}, Rep false h t p a F A → Rep false h t' p' a F' A' → t = t'
  | .node l ks, .node l' ks', p, p', a, F, F', A, A', hr, hr' => by
    obtain ⟨c, ar, F1, A1, h1, h2, h3, h4, h5, h6, _, _⟩ := hr
    obtain ⟨c', ar', F1', A1', g1, g2, g3, g4, g5, g6, _, _⟩ := hr'
    rw [h1] at g1
    cases g1
    rw [h4] at g4
    cases g4
    rw [← h2, ← g2, reps_fun h6 g6]
theorem reps_fun {h : Heap α V} : ∀ {ts ts' : List (PN α V)} {p p' os F F' A A'}, Reps false h ts p os F A → Reps false h ts' p' os F' A' → ts = ts'
  | [], [], _, _, _, _, _, _, _, _, _ => rfl
  | [], _ :: _, _, _, _, _, _, _, _, h1, h2 => by
    obtain ⟨rfl, _⟩ := h1
    obtain ⟨_, _, _, _, _, _, e, _⟩ := h2
    cases e
  | _ :: _, [], _, _, _, _, _, _, _, h1, h2 => by
    obtain ⟨rfl, _⟩ := h2
    obtain ⟨_, _, _, _, _, _, e, _⟩ := h1
    cases e
  | t :: ts, t' :: ts', _, _, _, _, _, _, _, h1, h2 => by
    obtain ⟨a, os, F1, A1, F2, A2, rfl, i1, i2, _, _⟩ := h1
    obtain ⟨a', os', F1', A1', F2', A2', e, j1, j2, _, _⟩ := h2
    cases e
    rw [rep_fun i1 j1, reps_fun i2 j2]
end

/-! ### C66 -/

variable [DecidableEq α]

/-- Every operation that a Reduction can be made from does in memory what it does on values, whatever room the arrays
have: it ends in the same way, the node is then the tree the model on values says, nothing outside the tree changed, and the tree
shares no node and no array with anything else, nor within itself. -/
theorem C66_operation (grow : Nat → Nat → Nat) (fuel : Nat) (o : Tree.ROp α) {h : Heap α V} {a F A} {t : PN α V} (ho : Owns h a t F A) :
    match o.apply fuel t with
    | .ok t' => ∃ h' F' A', apply grow fuel o h a = .ok h' ∧ Owns h' a t' F' A' ∧ Frame h h' F A ∧
        Within h.cells.length F F' ∧ Within h.arrs.length A A'
    | .panic => apply grow fuel o h a = .panic
    | .fuel => apply grow fuel o h a = .fuel := by
  have := apply_sim grow fuel o ho
  unfold Sim1 at this
  match o.apply fuel t, hm : apply grow fuel o h a, this with
  | .ok t', .ok m, ⟨h', F', A', e, r⟩ => cases e; exact ⟨_, F', A', rfl, r⟩
  | .panic, .panic, _ => rfl
  | .fuel, .fuel, _ => rfl

/-- The values returned by the operations that return one, and by the tests. -/
theorem C66_results (grow : Nat → Nat → Nat) {h : Heap α V} {a F A} {t : PN α V} (ho : Owns h a t F A) (i : Int) (k : α) (ks : List α) :
    Sim h a F A (Tree.removeChild t i) (removeChild grow h a i) ∧ Sim h a F A (Tree.promoteChild t i) (promoteChild grow h a i) ∧
    Sim h a F A (Tree.promoteChildrenOf t i) (promoteChildrenOf grow h a i) ∧ Sim h a F A (Tree.replaceWithChild t i) (replaceWithChild h a i) ∧
    Sim h a F A (Tree.promoteSingleChild t) (promoteSingleChild grow h a) ∧
    childIs h a i k = Tree.childIs t i k ∧ childAt h a i ks = Tree.childAt t i ks :=
  ⟨removeChild_sim grow ho i, promoteChild_sim grow ho i, promoteChildrenOf_sim grow ho i, replaceWithChild_sim ho i, promoteSingleChild_sim grow ho,
    childIs_eq ho i k, childAt_eq ho i ks⟩

/-- Reductions made from the operations with Chain and If do in memory what they do on values. -/
theorem C66_chains (grow : Nat → Nat → Nat) (fuel : Nat) :
    (∀ o : Tree.ROp α, RefRed (red (σ := σ) (V := V) grow fuel o) (o.red fuel)) ∧
    (∀ (f1 f2 : Red σ α V) (g1 g2 : Tree.Red σ α V), RefRed f1 g1 → RefRed f2 g2 → RefRed (chain f1 f2) (Tree.chain g1 g2)) ∧
    (∀ (c : Cond σ α V) (d : Tree.Cond σ α V) (f1 f2 : Red σ α V) (g1 g2 : Tree.Red σ α V), RefCond c d → RefRed f1 g1 → RefRed f2 g2 →
      RefRed (ifRed c f1 f2) (Tree.ifRed d g1 g2)) ∧
    (∀ (i : Int) (k : α), RefCond (childIsC (σ := σ) (V := V) i k) (Tree.childIsC i k)) :=
  ⟨refOp grow fuel, fun _ _ _ _ => refChain, fun _ _ _ _ _ _ => refIf, refChildIs⟩

/-- RawReduce in memory makes the tree that it makes on values, out of new nodes and arrays, and changes nothing
that there was. The tree reduced may share nodes (`Rep` instead of `Owns`). -/
theorem C66_reduce {rH : Reducer σ α V} {r : Tree.Reducer σ α V} (hR : ∀ k, RefRed (rH k).join (r k).join) (t : PN α V) (h : Heap α V) (p a F A s)
    (hr : Rep false h t p a F A) (n : Nat) (hn : depth t ≤ n) : New h (Tree.rawReduce r t s) (rawReduce rH n h a s) :=
  rawReduce_new hR t n h p a F A s hn hr

/-- In particular the tree reduced is unchanged, parent links included. -/
theorem C66_input {rH : Reducer σ α V} {r : Tree.Reducer σ α V} (hR : ∀ k, RefRed (rH k).join (r k).join) (t t' : PN α V) (h : Heap α V) (lk p a F A s s')
    (hr : Rep lk h t p a F A) (hp : Tree.rawReduce r t s = .ok (t', s')) :
    ∃ n0, ∀ n ≥ n0, ∃ h' a' F' A', rawReduce rH n h a s = .ok (h', a', s') ∧ Owns h' a' t' F' A' ∧ Rep lk h' t p a F A ∧
      (∀ x ∈ F, x ∉ F') ∧ ∀ x ∈ A, x ∉ A' := by
  refine ⟨depth t, fun n hn => ?_⟩
  have := C66_reduce hR t h p a F A s hr.unlink n hn
  rw [hp] at this
  obtain ⟨h', a', F', A', e, ho, hf, w1, w2⟩ := this
  refine ⟨h', a', F', A', e, ho, hf.old hr, ?_, ?_⟩
  · intro x hx hx'
    have := hr.bound.1 x hx
    have := w1 x hx'
    omega
  · intro x hx hx'
    have := hr.bound.2 x hx
    have := w2 x hx'
    omega

/-! ### C67 -/

/-- Operations keep parent links: after them the links are those of the resulting tree, with the root's link unchanged. Missing:
PromoteChildrenOf and ReplaceWithChild, for which it is false. -/
theorem C67_links_partial (grow : Nat → Nat → Nat) (fuel : Nat) (o : Tree.ROp α) {h : Heap α V} {p a F A} {t : PN α V} (ho : Linked h p a t F A)
    (h1 : ∀ i, o ≠ .promoteChildrenOf i) (h2 : ∀ i, o ≠ .replaceWithChild i) :
    match o.apply fuel t with
    | .ok t' => ∃ h' F' A', apply grow fuel o h a = .ok h' ∧ Linked h' p a t' F' A' ∧ Frame h h' F A ∧
        Within h.cells.length F F' ∧ Within h.arrs.length A A'
    | .panic => apply grow fuel o h a = .panic
    | .fuel => apply grow fuel o h a = .fuel := by
  have := apply_linked grow fuel o ho h1 h2
  unfold Sim1 at this
  match o.apply fuel t, hm : apply grow fuel o h a, this with
  | .ok t', .ok m, ⟨h', F', A', e, r⟩ => cases e; exact ⟨_, F', A', rfl, r⟩
  | .panic, .panic, _ => rfl
  | .fuel, .fuel, _ => rfl

/-! ### C58 -/

/-- Clone: a new tree with the parent links of a tree. -/
theorem C58_clone (t : PN α V) (h : Heap α V) (p a F A) (hr : Rep false h t p a F A) (n : Nat) (hn : depth t ≤ n) :
    ∃ h' a' F' A', clone n h a = .ok (h', a') ∧ Linked h' none a' (Tree.clone t) F' A' ∧ Frame h h' [] [] ∧
      (∀ x ∈ F', h.cells.length ≤ x) ∧ ∀ x ∈ A', h.arrs.length ≤ x :=
  clone_newL t n h p a F A hn hr

/-- New: a new tree with the parent links of a tree, or the error or panic of the model on values. -/
theorem C58_new (grow : Nat → Nat → Nat) (h : Heap Str Str) (str : Str) : NewO h (TreeText.new str) (new grow h str) := new_newO grow h str

/-- The packrat parser: a new tree with the parent links of a tree, the one of the model on values, about which C19-C24
speak. -/
theorem C58_packrat (ev : V) (env : Packrat.Env) (s : Nat) (lxms : List (Lexeme Nat V)) (fuel : Nat) (h : Heap Nat V) :
    NewO h (Packrat.parseIdx ev env s lxms fuel) (parseIdx ev env s lxms fuel h) := by
  unfold Packrat.parseIdx parseIdx
  match Packrat.addProds env fuel fuel Packrat.St.init ⟨s, 0⟩ with
  | .panic => rfl
  | .fuel => rfl
  | .ok st0 =>
    simp only [Out.bind_ok]
    match Packrat.loop env fuel fuel st0 with
    | .panic => rfl
    | .fuel => rfl
    | .ok st =>
      simp only [Out.bind_ok]
      split
      · rfl
      · have := toPN_newL ev lxms st.get fuel h (st.get ⟨s, 0, lxms.length⟩)
        match Packrat.toPN ev lxms st.get fuel (st.get ⟨s, 0, lxms.length⟩), this with
        | .panic, this => rw [this]; rfl
        | .fuel, this => rw [this]; rfl
        | .ok t, ⟨h', a, F, A, e, r⟩ => rw [e]; exact ⟨h', a, F, A, rfl, r⟩

/-- `Parent` of the root of a tree with these links is not nil, though "If parent is nil, this is the root of the tree"
(parsetree.go:57-58): the nil pointer is converted to a non-nil interface. -/
theorem C58_parent_refuted {h : Heap α V} {a F A} {t : PN α V} (hl : Linked h none a t F A) :
    ∃ c, h.cells[a]? = some c ∧ parent c = .pn none ∧ parent c ≠ .nil := by
  obtain ⟨c, h1, h2⟩ := (rep_links hl.1).1
  exact ⟨c, h1, by rw [parent, h2], by rw [parent]; simp⟩

/-! ### Concrete cases -/

/-- What is in memory, without values and positions. -/
def view (h : Heap Str Str) : List (Str × Option Nat × Nat × Nat) × List (List (Option Nat)) :=
  (h.cells.map fun c => (c.lx.kind, c.P, c.C.arr, c.C.len), h.arrs)

/-- Memory and address, if there are any. -/
def got (m : Out (Option (Heap Str Str × Nat))) : Heap Str Str × Nat :=
  match m with
  | .ok (some r) => r
  | _ => (⟨[], []⟩, 0)

/-- A policy that leaves room for one more. -/
def roomy : Nat → Nat → Nat := fun _ _ => 1

/-- A text for `New`. -/
def text : Str := "a {\n b {\n c\n d\n }\n e\n f\n}".toList

/-- Memory after `New`. -/
def made : Heap Str Str × Nat := got (new roomy ⟨[], []⟩ text)

theorem made_eq : new roomy ⟨[], []⟩ text = .ok (some made) := by
  have : (match new roomy ⟨[], []⟩ text with | .ok (some _) => true | _ => false) = true := by decide +kernel
  unfold made got
  revert this
  match new roomy ⟨[], []⟩ text with
  | .ok (some r) => intro _; rfl
  | .ok none => intro h; cases h
  | .panic => intro h; cases h
  | .fuel => intro h; cases h

/-- `New` makes a linked tree; the hypothesis of C66 and C58_clone is met by it. -/
theorem ex_new : ∃ t F A, TreeText.new text = .ok (some t) ∧ Linked made.1 none made.2 t F A ∧ Owns made.1 made.2 t F A := by
  have := C58_new roomy ⟨[], []⟩ text
  rw [made_eq] at this
  match ht : TreeText.new text, this with
  | .ok none, this => cases this
  | .panic, this => cases this
  | .fuel, this => cases this
  | .ok (some t), ⟨h', a, F, A, e, hl, _⟩ =>
    cases e
    exact ⟨t, F, A, rfl, hl, linked_owns hl⟩

/-- The memory then: the nodes (the first is the one `New` starts with) and the arrays, of which some were outgrown and some
have room left. -/
theorem ex_view : view made.1 =
    ([([], none, 2, 1), ("a".toList, none, 10, 3), ("b".toList, some 1, 6, 2), ("c".toList, some 2, 5, 0), ("d".toList, some 2, 7, 0),
      ("e".toList, some 1, 8, 0), ("f".toList, some 1, 9, 0)],
     [[], [], [some 1, none], [], [some 2, some 5], [], [some 3, some 4], [], [], [], [some 2, some 5, some 6, none]]) := by decide +kernel

/-- Memory after an operation, if it ends. -/
def after (m : Out (Heap Str Str)) : Heap Str Str :=
  match m with
  | .ok h => h
  | _ => ⟨[], []⟩

/-- PromoteChildrenOf on that tree writes into the node's own array (the last but one), from a new one. -/
theorem ex_inPlace : (view (after (apply roomy 10 (.promoteChildrenOf 0) made.1 made.2))).2 =
    [[], [], [some 1, none], [], [some 2, some 5], [], [some 3, some 4], [], [], [], [some 3, some 4, some 5, some 6], [some 3, some 4, some 5, some 6, none]] := by
  decide +kernel

/-- Without ownership the claim fails: if two nodes share an array, removing a child of one changes the other. -/
theorem ex_shared : let h : Heap Str Str := ⟨[⟨⟨['x'], [], 0, 0⟩, none, ⟨0, 2⟩⟩, ⟨⟨['y'], [], 0, 0⟩, none, ⟨0, 2⟩⟩, ⟨⟨['a'], [], 0, 0⟩, none, ⟨1, 0⟩⟩,
      ⟨⟨['b'], [], 0, 0⟩, none, ⟨1, 0⟩⟩], [[some 2, some 3], []]⟩
    h.vals ⟨0, 2⟩ = [some 2, some 3] ∧ (after (apply roomy 10 (.removeChild 0) h 0)).vals ⟨0, 2⟩ = [some 3, some 3] := by
  decide +kernel

/-- A node of which a child has a wrong parent link. -/
def badLink (h : Heap Str Str) (x y : Nat) : Bool :=
  match h.cells[x]?, h.cells[y]? with
  | some c, some d => (h.vals c.C).any (fun o => o == some y) && !(d.P == some x)
  | _, _ => false

theorem not_linked {h : Heap Str Str} {p a t F A} (x y : Nat) (hx : x ∈ F) (hb : badLink h x y = true) : ¬ Linked h p a t F A := by
  intro hl
  obtain ⟨c, h1, h2⟩ := (rep_links hl.1).2 x hx
  unfold badLink at hb
  rw [h1] at hb
  match hd : h.cells[y]? with
  | none => rw [hd] at hb; simp at hb
  | some d =>
    rw [hd] at hb
    simp only [Bool.and_eq_true, List.any_eq_true] at hb
    obtain ⟨⟨o, ho, e⟩, e'⟩ := hb
    obtain ⟨z, d', g1, g2, g3, g4⟩ := h2 o ho
    simp only [beq_iff_eq] at e
    subst e
    cases g1
    rw [hd] at g3
    cases g3
    simp [g4] at e'

/-- PromoteChildrenOf does not set the parent links of the children promoted. -/
theorem C67_promoteChildrenOf_refuted : ∀ p t F A, ¬ Linked (after (apply roomy 10 (.promoteChildrenOf 0) made.1 made.2)) p made.2 t F A :=
  fun _ _ _ _ hl => not_linked made.2 3 hl.1.root_mem (by decide +kernel) hl

/-- ReplaceWithChild copies the child's parent link and does not set those of its children. -/
theorem C67_replaceWithChild_refuted : ∀ p t F A, ¬ Linked (after (apply roomy 10 (.replaceWithChild 0) made.1 made.2)) p made.2 t F A :=
  fun _ _ _ _ hl => not_linked made.2 3 hl.1.root_mem (by decide +kernel) hl

/-- PromoteChild on the same tree: the case shows the hypotheses of `C67_links_partial` met, and the children promoted linked to the node. -/
theorem ex_links : (∃ t F A, Linked made.1 none made.2 t F A) ∧
    (view (after (apply roomy 10 (.promoteChild 0) made.1 made.2))).1 =
      [([], none, 2, 1), ("b".toList, none, 10, 4), ("b".toList, some 1, 6, 2), ("c".toList, some 1, 5, 0), ("d".toList, some 1, 7, 0),
       ("e".toList, some 1, 8, 0), ("f".toList, some 1, 9, 0)] := by
  refine ⟨?_, by decide +kernel⟩
  obtain ⟨t, F, A, _, hl, _⟩ := ex_new
  exact ⟨t, F, A, hl⟩

/-- Memory and address after RawReduce, if it ends. -/
def afterR (m : Out (Heap Str Str × Nat × Unit)) : Heap Str Str × Nat :=
  match m with
  | .ok (h, a, _) => (h, a)
  | _ => (⟨[], []⟩, 0)

/-- The result of a reduction does not have the parent links of a tree: RawReduce sets none. -/
theorem C58_reduced_refuted : ∀ t F A, ¬ Linked (afterR (rawReduce (fun _ => none) 5 made.1 made.2 ())).1 none
    (afterR (rawReduce (fun _ => none) 5 made.1 made.2 ())).2 t F A := by
  intro t F A hl
  obtain ⟨_, hm, hx⟩ := linked_links hl
  obtain ⟨c, h1, h2⟩ := hx _ hm
  have e0 : (afterR (rawReduce (fun _ => none) 5 made.1 made.2 ())).2 = 7 := by decide +kernel
  rw [e0] at h1
  have e1 : ((afterR (rawReduce (fun _ => none) 5 made.1 made.2 ())).1.cells[7]?).map (fun c => (c.C.arr, c.C.len)) = some (11, 3) := by decide +kernel
  rw [h1] at e1
  have e2 : (afterR (rawReduce (fun _ => none) 5 made.1 made.2 ())).1.vals ⟨11, 3⟩ = [some 8, some 11, some 12] := by decide +kernel
  have e3 : ((afterR (rawReduce (fun _ => none) 5 made.1 made.2 ())).1.cells[8]?).map (fun c => c.P) = some none := by decide +kernel
  have e4 : c.C = ⟨11, 3⟩ := by
    simp only [Option.map_some, Option.some.injEq, Prod.mk.injEq] at e1
    cases hc : c.C
    simp [hc] at e1
    simp [e1]
  obtain ⟨y, d, g1, g2, g3, g4⟩ := h2 (some 8) (by rw [e4, e2]; simp)
  cases g1
  rw [g3] at e3
  simp [g4] at e3

/-- PromoteChild and then ReplaceWithChild make a node its own parent, so that following the links never ends. -/
theorem C58_cycle_refuted : ((after ((apply roomy 10 (.promoteChild 0) made.1 made.2).bind fun h => apply roomy 10 (.replaceWithChild 0) h made.2)).cells[made.2]?).map
    (fun c => c.P) = some (some made.2) := by
  decide +kernel

/-- RawReduce with one reduction, in memory and on values: the hypotheses of `C66_reduce` are met. -/
theorem ex_reduce : ∃ t F A, Owns made.1 made.2 t F A ∧
    New made.1 (Tree.rawReduce (fun k => if k = ['b'] then some (Tree.ROp.red 10 (.removeChild 0)) else none) t ())
      (rawReduce (fun k => if k = ['b'] then some (red roomy 10 (.removeChild 0)) else none) (depth t) made.1 made.2 ()) := by
  obtain ⟨t, F, A, _, _, ho⟩ := ex_new
  refine ⟨t, F, A, ho, C66_reduce (fun k => ?_) t made.1 none made.2 F A () ho.1 _ (Nat.le_refl _)⟩
  by_cases e : k = ['b']
  · simp only [if_pos e]; exact refOp roomy 10 _
  · simp only [if_neg e]; trivial

end Verif.Props.TreeHeap
