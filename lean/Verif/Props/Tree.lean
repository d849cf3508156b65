import Verif.Proofs.Tree
/-
Properties of package tree (C26-C32): operations on nodes, chains of reductions, reducers, Clone.
-/
namespace Verif.Props.Tree
open Verif.Spec Verif.Tree

variable {α V σ : Type} [DecidableEq α]

/-! ### C26: indices -/

/-- **C26**, indices in range. `i` selects the child `c` (counting from the end if negative): every
operation acts on `c`. -/
theorem C26_in_range (l : Lexeme α V) (a b : List (PN α V)) (c : PN α V) (i : Int)
    (h : Sel (a ++ c :: b).length i a.length) :
    child (.node l (a ++ c :: b)) i = .ok (some c) ∧
    (∀ ks, childAt (.node l (a ++ c :: b)) i ks = .ok (decide (c.kind ∈ ks))) ∧
    (∀ k, childIs (.node l (a ++ c :: b)) i k = .ok (decide (c.kind = k))) ∧
    removeChild (.node l (a ++ c :: b)) i = .ok (.node l (a ++ b), true) ∧
    promoteChild (.node l (a ++ c :: b)) i = .ok (.node c.lx (a ++ c.kids ++ b), true) ∧
    promoteChildrenOf (.node l (a ++ c :: b)) i = .ok (.node l (a ++ c.kids ++ b), true) ∧
    replaceWithChild (.node l (a ++ c :: b)) i = .ok (c, true) ∧
    promoteChildValue (.node l (a ++ c :: b)) i =
      .ok (.node ⟨l.kind, c.lx.val, c.lx.line, c.lx.col⟩ (a ++ b)) :=
  ⟨child_sel h, fun ks => childAt_sel ks h, fun k => childIs_sel k h, removeChild_sel h, promoteChild_sel h,
    promoteChildrenOf_sel h, replaceWithChild_sel h, promoteChildValue_sel h⟩

/-- **C26**, indices out of range: nothing happens, for all operations but PromoteChildValue. -/
theorem C26_out_of_range (p : PN α V) (i : Int) (h : OutOfRange p.kids.length i) :
    child p i = .ok none ∧ (∀ ks, childAt p i ks = .ok false) ∧ (∀ k, childIs p i k = .ok false) ∧
    removeChild p i = .ok (p, false) ∧ promoteChild p i = .ok (p, false) ∧
    promoteChildrenOf p i = .ok (p, false) ∧ replaceWithChild p i = .ok (p, false) :=
  ⟨child_out h, fun ks => childAt_out ks h, fun k => childIs_out k h, removeChild_out h, promoteChild_out h,
    promoteChildrenOf_out h, replaceWithChild_out h⟩

/-- **C26** for PromoteChildValue out of range. Missing from the full statement (nothing happens for
every index out of range): indices from `-2n` to `-n-1`, where the claim is false. -/
theorem C26_out_of_range_value_partial (p : PN α V) (i : Int) (h : OutOfRange p.kids.length i)
    (h2 : ¬ (-(2 * p.kids.length : Int) ≤ i ∧ i < -(p.kids.length : Int))) :
    promoteChildValue p i = .ok p :=
  promoteChildValue_out (by unfold OutOfRange at h; omega)

/-- What PromoteChildValue does with the remaining indices: the index is converted twice and a child
removed without its value being promoted. -/
theorem C26_value_below (l : Lexeme α V) (a b : List (PN α V)) (c : PN α V) (i : Int)
    (hi : i = (a.length : Int) - 2 * (a ++ c :: b).length) :
    OutOfRange (a ++ c :: b).length i ∧
    promoteChildValue (.node l (a ++ c :: b)) i = .ok (.node l (a ++ b)) := by
  have hlt : a.length < (a ++ c :: b).length := by simp
  refine ⟨.inl (by omega), promoteChildValue_below (by omega) ⟨hlt, .inr (by omega)⟩⟩

/-- **C26** is false for PromoteChildValue: with one child, index -2 removes that child. -/
theorem C26_refuted : ∃ (p : PN Nat Nat) (i : Int), OutOfRange p.kids.length i ∧ promoteChildValue p i ≠ .ok p := by
  refine ⟨.node ⟨0, 0, 0, 0⟩ [.node ⟨1, 5, 0, 0⟩ []], -2, .inl (by simp [PN.kids]), ?_⟩
  have := (C26_value_below ⟨0, 0, 0, 0⟩ [] [] (.node ⟨1, 5, 0, 0⟩ []) (-2) (by simp)).2
  simp only [List.nil_append] at this
  rw [this]
  simp

/-- Every index is in range (and selects exactly one child) or out of range; so C26 covers all. -/
theorem C26_cases (n : Nat) (i : Int) :
    (∃ k, Sel n i k ∧ ∀ k', Sel n i k' → k' = k) ∧ ¬ OutOfRange n i ∨
    OutOfRange n i ∧ ∀ k, ¬ Sel n i k := by
  rcases sel_or_out n i with ⟨k, h⟩ | h
  · exact .inl ⟨⟨k, h, fun k' h' => sel_unique h' h⟩, fun ho => not_sel_of_out ho h⟩
  · exact .inr ⟨h, fun k => not_sel_of_out h⟩

/-- Concrete case: three children, index -1 and 2 select the last, -4 and 3 are out of range. -/
example : Sel 3 (-1) 2 ∧ Sel 3 2 2 ∧ OutOfRange 3 (-4) ∧ OutOfRange 3 3 := by unfold Sel OutOfRange; omega

/-! ### C27: removing children -/

/-- **C27**, RemoveChildren: the children that stay are, in order, those at positions which no index of
the list selects (in the original list). -/
theorem C27_removeChildren (p : PN α V) (is : List Int) :
    removeChildren p is = .ok (.node p.lx
      ((p.kids.zipIdx.filter fun x => ¬ ∃ i ∈ is, Sel p.kids.length i x.2).map (·.1))) := by
  obtain ⟨d, e, hl, hd⟩ := dropFlags_eq p is (List.replicate p.kids.length false) (by simp)
  rw [removeChildren, e, Out.bind_ok]
  have := keepUnflagged_eq p (fun k => ∃ i ∈ is, Sel p.kids.length i k) d p.kids [] rfl hl (by
    intro k
    rw [hd k]
    constructor
    · rintro (h | ⟨i, hi, hs⟩)
      · rw [List.getElem?_replicate] at h
        split at h <;> simp at h
      · exact ⟨hs.1, i, hi, by simpa using hs⟩
    · rintro ⟨_, i, hi, hs⟩
      exact .inr ⟨i, hi, by simpa using hs⟩)
  simp only [List.length_nil] at this
  rw [this]
  rfl

/-- **C27**, RemoveAll: the loop terminates without panic, and the children that stay are, in order,
those whose kind is not listed. -/
theorem C27_removeAll (p : PN α V) (ks : List α) :
    Out.Returns (removeAll p ks) (.node p.lx (p.kids.filter fun c => c.kind ∉ ks)) := by
  refine ⟨p.kids.length + 1, fun n hn => ?_⟩
  cases p with
  | node l cs =>
    have := removeAllLoop_eq ks l cs [] n (by simp [PN.kids] at hn; omega)
    simpa [removeAll, PN.lx, PN.kids] using this

/-- Concrete case: of children 0..3, removing indices 0, -1, 0 and 7 leaves the middle two. -/
example : removeChildren (.node ⟨9, 0, 0, 0⟩ [.node ⟨0, 0, 0, 0⟩ [], .node ⟨1, 0, 0, 0⟩ [], .node ⟨2, 0, 0, 0⟩ [],
    .node ⟨3, 0, 0, 0⟩ []]) [0, -1, 0, 7] = .ok (.node (⟨9, 0, 0, 0⟩ : Lexeme Nat Nat)
      [.node ⟨1, 0, 0, 0⟩ [], .node ⟨2, 0, 0, 0⟩ []]) := rfl

example : removeAll (.node ⟨9, 0, 0, 0⟩ [.node ⟨0, 0, 0, 0⟩ [], .node ⟨0, 1, 0, 0⟩ [], .node ⟨2, 0, 0, 0⟩ [],
    .node ⟨3, 0, 0, 0⟩ []]) [3, 0] 10 = .ok (.node (⟨9, 0, 0, 0⟩ : Lexeme Nat Nat) [.node ⟨2, 0, 0, 0⟩ []]) := rfl

/-! ### C28: promotions -/

/-- **C28**: what the promotions do (indices in range; out of range see C26). -/
theorem C28_promotions (l : Lexeme α V) :
    (∀ a c b i, Sel (a ++ c :: b).length i a.length →
      promoteChildrenOf (.node l (a ++ c :: b)) i = .ok (.node l (a ++ c.kids ++ b), true) ∧
      promoteChild (.node l (a ++ c :: b)) i = .ok (.node c.lx (a ++ c.kids ++ b), true) ∧
      replaceWithChild (.node l (a ++ c :: b)) i = .ok (c, true)) ∧
    (∀ ks, promoteGrandChildren (.node l ks) = .node l (ks.flatMap PN.kids)) ∧
    (∀ c, promoteSingleChild (.node l [c]) = .ok (c, true)) ∧
    (∀ ks, ks.length ≠ 1 → promoteSingleChild (.node l ks) = .ok (.node l ks, false)) := by
  refine ⟨fun a c b i h => ⟨promoteChildrenOf_sel h, promoteChild_sel h, replaceWithChild_sel h⟩, ?_, ?_, ?_⟩
  · intro ks
    rw [promoteGrandChildren, foldl_kids]; rfl
  · intro c
    have := promoteChild_sel (l := l) (a := []) (b := []) (c := c) (i := 0) ⟨by simp, .inl rfl⟩
    simp only [List.nil_append] at this
    rw [promoteSingleChild, if_pos (by rfl), this]
    cases c
    simp [PN.lx, PN.kids]
  · intro ks h
    rw [promoteSingleChild, if_neg (by simpa [PN.kids] using h)]

omit [DecidableEq α] in
theorem leavesL_append (a b : List (PN α V)) : leavesL (a ++ b) = leavesL a ++ leavesL b := by
  induction a with
  | nil => simp [leavesL]
  | cons t a ih => simp [leavesL, ih]

omit [DecidableEq α] in
theorem leaves_node {l : Lexeme α V} {ks} (h : ks ≠ []) : PN.leaves (.node l ks) = leavesL ks := by
  cases ks with
  | nil => exact absurd rfl h
  | cons t ts => rw [PN.leaves, leavesL]

omit [DecidableEq α] in
theorem leaves_kids {c : PN α V} (h : c.kids ≠ []) : c.leaves = leavesL c.kids := by
  cases c; exact leaves_node h

/-- **C28**: a promotion of a child that has children keeps all leaves in order; so does promoting all
grandchildren if every child has children; and so does promoting the only child. -/
theorem C28_leaves (l l' : Lexeme α V) (a b : List (PN α V)) (c : PN α V) :
    (c.kids ≠ [] → PN.leaves (.node l' (a ++ c.kids ++ b)) = PN.leaves (.node l (a ++ c :: b))) ∧
    (a ≠ [] → (∀ t ∈ a, t.kids ≠ []) → (promoteGrandChildren (.node l a)).leaves = PN.leaves (.node l a)) ∧
    c.leaves = PN.leaves (.node l [c]) := by
  refine ⟨?_, ?_, ?_⟩
  · intro h
    rw [leaves_node (by simp [h]), leaves_node (by simp), leavesL_append, leavesL_append, leavesL_append, leavesL,
      ← leaves_kids h]
    simp
  · intro hne h
    rw [(C28_promotions l).2.1, leaves_node hne, leaves_node]
    · clear hne
      induction a with
      | nil => rfl
      | cons t a ih =>
        rw [List.flatMap_cons, leavesL_append, leavesL, ← leaves_kids (h t (by simp)), ih fun t ht => h t (by simp [ht])]
    · cases a with
      | nil => exact absurd rfl hne
      | cons t a => simp [h t (by simp)]
  · rw [leaves_node (by simp)]; simp [leavesL]

/-- The condition on the child is needed: promoting the children of a leaf drops the leaf. -/
example : promoteChildrenOf (.node ⟨0, 0, 0, 0⟩ [.node ⟨1, 0, 0, 0⟩ [], .node ⟨2, 0, 0, 0⟩ []]) 0 =
    .ok (.node (⟨0, 0, 0, 0⟩ : Lexeme Nat Nat) [.node ⟨2, 0, 0, 0⟩ []], true) := rfl

/-! ### C29: Reduce -/

/-- One bottom-up pass as a relation: children left to right, then the reduction for the node's kind,
if any, on the node with the results as children. `s` is the state of the reductions. -/
inductive Pass (r : Reducer σ α V) : List (PN α V) → σ → List (PN α V) → σ → Prop
  | nil {s} : Pass r [] s [] s
  | keep {l ks ts s ks' s' ts' s''} : Pass r ks s ks' s' → (r l.kind).join = none → Pass r ts s' ts' s'' →
      Pass r (.node l ks :: ts) s (.node l ks' :: ts') s''
  | call {l ks ts s ks' s' f t' s2 ts' s''} : Pass r ks s ks' s' → (r l.kind).join = some f →
      f (.node l ks') s' = .ok (t', s2) → Pass r ts s2 ts' s'' →
      Pass r (.node l ks :: ts) s (t' :: ts') s''

theorem pass_cons {r : Reducer σ α V} {t ts s ts' s''} : Pass r (t :: ts) s ts' s'' ↔
    ∃ t' s' ts2, ts' = t' :: ts2 ∧ Pass r [t] s [t'] s' ∧ Pass r ts s' ts2 s'' := by
  constructor
  · intro h
    cases h with
    | keep h1 h2 h3 => exact ⟨_, _, _, rfl, .keep h1 h2 .nil, h3⟩
    | call h1 h2 h3 h4 => exact ⟨_, _, _, rfl, .call h1 h2 h3 .nil, h4⟩
  · rintro ⟨t', s', ts2, rfl, h1, h2⟩
    cases h1 with
    | keep h3 h4 h5 => cases h5; exact .keep h3 h4 h2
    | call h3 h4 h5 h6 => cases h6; exact .call h3 h4 h5 h2

mutual
theorem pass_tree (r : Reducer σ α V) : ∀ (t : PN α V) s t' s',
    rawReduce r t s = .ok (t', s') ↔ Pass r [t] s [t'] s'
  | .node l ks, s, t', s' => by
    rw [rawReduce, Out.bind_eq_ok]
    constructor
    · rintro ⟨⟨ks', s1⟩, h1, h2⟩
      have h1 := (pass_list r ks s ks' s1).1 h1
      cases e : (r l.kind).join with
      | none => rw [e] at h2; cases h2; exact .keep h1 e .nil
      | some f => rw [e] at h2; exact .call h1 e h2 .nil
    · intro h
      cases h with
      | keep h1 h2 h3 => cases h3; exact ⟨_, (pass_list r ks _ _ _).2 h1, by rw [h2]⟩
      | call h1 h2 h3 h4 => cases h4; exact ⟨_, (pass_list r ks _ _ _).2 h1, by rw [h2]; exact h3⟩
theorem pass_list (r : Reducer σ α V) : ∀ (ts : List (PN α V)) s ts' s',
    rawReduces r ts s = .ok (ts', s') ↔ Pass r ts s ts' s'
  | [], s, ts', s' => by
    rw [rawReduces]
    constructor
    · rintro ⟨⟩; exact .nil
    · rintro ⟨⟩; rfl
  | t :: ts, s, ts', s' => by
    rw [rawReduces, Out.bind_eq_ok, pass_cons]
    constructor
    · rintro ⟨⟨t', s1⟩, h1, h2⟩
      obtain ⟨⟨ts2, s2⟩, h3, h4⟩ := Out.bind_eq_ok.1 h2
      cases h4
      exact ⟨t', s1, ts2, rfl, (pass_tree r t _ _ _).1 h1, (pass_list r ts _ _ _).1 h3⟩
    · rintro ⟨t', s1, ts2, rfl, h1, h2⟩
      refine ⟨(t', s1), (pass_tree r t _ _ _).2 h1, ?_⟩
      rw [(pass_list r ts _ _ _).2 h2]
      rfl
end

/-- **C29.** Reduce of nil is nil; Reduce of a tree is one bottom-up pass: it returns `t'` exactly if
such a pass leads from `t` to `t'`. Reductions are arbitrary functions, which may have state. -/
theorem C29_pass (r : Reducer σ α V) :
    (∀ s, reduce r none s = .ok (none, s)) ∧
    (∀ t s o s', reduce r (some t) s = .ok (o, s') ↔ ∃ t', o = some t' ∧ Pass r [t] s [t'] s') := by
  refine ⟨fun s => rfl, fun t s o s' => ?_⟩
  rw [reduce, Out.bind_eq_ok]
  constructor
  · rintro ⟨⟨t', s1⟩, h1, h2⟩
    cases h2
    exact ⟨t', rfl, (pass_tree r t _ _ _).1 h1⟩
  · rintro ⟨t', rfl, h⟩
    exact ⟨_, (pass_tree r t _ _ _).2 h, rfl⟩

/-- Reductions instrumented to log the node they are called on. -/
def logged (r : Reducer Unit α V) : Reducer (List (Lexeme α V)) α V := fun k =>
  (r k).map fun f => f.map fun f p s => (f p ()).bind fun q => .ok (q.1, s ++ [p.lx])

theorem pass_log (r : Reducer Unit α V) {ts s ts' s'} (h : Pass (logged r) ts s ts' s') :
    s' = s ++ (postorders ts).filter fun l => ((r l.kind).join).isSome := by
  induction h with
  | nil => simp [postorders]
  | @keep l ks ts s ks' s' ts' s'' h1 h2 h3 ih1 ih2 =>
    have : (r l.kind).join.isSome = false := by
      unfold logged at h2
      cases e : r l.kind with
      | none => rfl
      | some f => cases f with
        | none => rfl
        | some f => rw [e] at h2; cases h2
    rw [ih2, ih1, postorders, PN.postorder]
    simp [this]
  | @call l ks ts s ks' s' f t' s2 ts' s'' h1 h2 h3 h4 ih1 ih2 =>
    have : (r l.kind).join.isSome = true ∧ s2 = s' ++ [l] := by
      unfold logged at h2
      cases e : r l.kind with
      | none => rw [e] at h2; cases h2
      | some f => cases f with
        | none => rw [e] at h2; cases h2
        | some f =>
          rw [e] at h2
          cases h2
          obtain ⟨q, _, hq⟩ := Out.bind_eq_ok.1 h3
          cases hq
          exact ⟨rfl, rfl⟩
    rw [ih2, this.2, ih1, postorders, PN.postorder]
    simp [this.1]

/-- **C29**, exactly once: the reductions called are, in this order, those of the nodes of the original
tree in postorder that have one, each called once and on a node with the original node's lexeme. -/
theorem C29_calls (r : Reducer Unit α V) (t : PN α V) (t' : PN α V) (log : List (Lexeme α V))
    (h : rawReduce (logged r) t [] = .ok (t', log)) :
    log = t.postorder.filter fun l => ((r l.kind).join).isSome := by
  have := pass_log r ((pass_tree _ t _ _ _).1 h)
  simpa [postorders] using this

mutual
theorem reduce_none (r : Reducer σ α V) : ∀ (t : PN α V) s, (∀ l ∈ t.postorder, (r l.kind).join = none) →
    rawReduce r t s = .ok (t, s)
  | .node l ks, s, h => by
    rw [rawReduce, reduces_none r ks s fun x hx => h x (by rw [PN.postorder]; simp [hx]), Out.bind_ok,
      h l (by rw [PN.postorder]; simp)]
theorem reduces_none (r : Reducer σ α V) : ∀ (ts : List (PN α V)) s, (∀ l ∈ postorders ts, (r l.kind).join = none) →
    rawReduces r ts s = .ok (ts, s)
  | [], _, _ => rfl
  | t :: ts, s, h => by
    rw [rawReduces, reduce_none r t s fun x hx => h x (by rw [postorders]; simp [hx]), Out.bind_ok,
      reduces_none r ts s fun x hx => h x (by rw [postorders]; simp [hx])]
    rfl
end

/-- **C29**, unrelated nodes: a tree without a node of a registered kind comes back equal, with kinds,
values and positions; in particular under the empty reducer. -/
theorem C29_unrelated (r : Reducer σ α V) (t : PN α V) (s : σ) :
    ((∀ l ∈ t.postorder, (r l.kind).join = none) → reduce r (some t) s = .ok (some t, s)) ∧
    reduce (fun _ => none) (some t) s = .ok (some t, s) := by
  constructor
  · intro h
    rw [reduce, reduce_none r t s h]; rfl
  · rw [reduce, reduce_none (fun _ => none) t s (fun _ _ => rfl)]; rfl

/-- Concrete case: kind 0 (twice in the tree) removes its first child. -/
example : reduce (fun k => if k = 0 then some (ROp.red 5 (.removeChild 0)) else none)
    (some (.node ⟨0, 0, 1, 1⟩ [.node ⟨1, 0, 0, 0⟩ [], .node ⟨0, 0, 0, 0⟩ [.node ⟨2, 0, 0, 0⟩ [], .node ⟨3, 0, 0, 0⟩ []]])) () =
    .ok (some (.node (⟨0, 0, 1, 1⟩ : Lexeme Nat Nat) [.node ⟨0, 0, 0, 0⟩ [.node ⟨3, 0, 0, 0⟩ []]]), ()) := rfl

/-! ### C30: Merge -/

/-- Running a reduction (nothing if nil or absent). -/
def run (r : Option (Red σ α V)) (p : PN α V) (s : σ) : Out (PN α V × σ) :=
  match r with
  | some (some f) => f p s
  | _ => .ok (p, s)

theorem merge1_get (r1 r2 : Reducer σ α V) : ∀ (o : List α) (m : Reducer σ α V) k,
    merge1 r1 r2 o m k = if k ∈ o ∧ (r2 k).isSome then
      (match r1 k, r2 k with | none, x => x | some f1, some f2 => some (chain f1 f2) | x, none => x) else m k := by
  intro o
  induction o with
  | nil => intro m k; simp [merge1]
  | cons x o ih =>
    intro m k
    rw [merge1]
    cases e2 : r2 x with
    | none =>
      simp only
      rw [ih]
      by_cases hk : k = x
      · subst hk; simp [e2]
      · simp [hk]
    | some f2 =>
      cases e1 : r1 x with
      | none =>
        simp only
        rw [ih]
        by_cases hk : k = x
        · subst hk; simp [e2, e1]
        · simp [hk, upd_ne]
      | some f1 =>
        simp only
        rw [ih]
        by_cases hk : k = x
        · subst hk; simp [e2, e1]
        · simp [hk, upd_ne]

theorem merge2_get (r1 : Reducer σ α V) : ∀ (o : List α) (m : Reducer σ α V) k,
    merge2 r1 o m k = match m k with | some f => some f | none => if k ∈ o then r1 k else none := by
  intro o
  induction o with
  | nil => intro m k; simp only [merge2]; cases m k <;> simp
  | cons x o ih =>
    intro m k
    rw [merge2]
    cases e1 : r1 x with
    | none =>
      simp only
      rw [ih]
      by_cases hk : k = x
      · subst hk; cases m k <;> simp [e1]
      · simp [hk]
    | some f1 =>
      cases em : m x with
      | none =>
        simp only
        rw [ih]
        by_cases hk : k = x
        · subst hk; simp [em, e1]
        · simp [hk, upd_ne]
      | some f =>
        simp only
        rw [ih]
        by_cases hk : k = x
        · subst hk; simp [em]
        · simp [hk]

/-- **C30.** For all orders in which Go may range over the keys of the two maps: the merged reducer has
a rule for a node iff one of the two has, and running it on a node is running the first's rule and then
the second's. -/
theorem C30_merge (r1 r2 : Reducer σ α V) (o1 o2 : List α)
    (h1 : ∀ k, k ∈ o1 ↔ (r1 k).isSome) (h2 : ∀ k, k ∈ o2 ↔ (r2 k).isSome) :
    (∀ p, (merge r1 r2 o1 o2).can p = (r1.can p || r2.can p)) ∧
    ∀ k p s, run (merge r1 r2 o1 o2 k) p s = (run (r1 k) p s).bind fun q => run (r2 k) q.1 q.2 := by
  have key : ∀ k, merge r1 r2 o1 o2 k =
      (match r1 k, r2 k with | none, x => x | some f1, some f2 => some (chain f1 f2) | x, none => x) := by
    intro k
    simp only [merge, merge2_get, merge1_get, h2 k, h1 k]
    cases e1 : r1 k <;> cases e2 : r2 k <;> simp
  constructor
  · intro p
    unfold Reducer.can
    rw [key]
    cases e1 : r1 p.kind <;> cases e2 : r2 p.kind <;> simp
  · intro k p s
    rw [key]
    cases e1 : r1 k with
    | none => simp [run]
    | some f1 =>
      cases e2 : r2 k with
      | none =>
        simp only [run]
        cases f1 with
        | none => simp
        | some f1 => simp only; cases f1 p s <;> simp
      | some f2 =>
        cases f1 with
        | none => cases f2 <;> simp [run, chain]
        | some f1 =>
          cases f2 with
          | none => simp only [run, chain]; cases f1 p s <;> simp
          | some f2 => simp [run, chain]

/-- Independence of the iteration order (C30). -/
theorem C30_order (r1 r2 : Reducer σ α V) (o1 o2 o1' o2' : List α)
    (h1 : ∀ k, k ∈ o1 ↔ (r1 k).isSome) (h2 : ∀ k, k ∈ o2 ↔ (r2 k).isSome)
    (h1' : ∀ k, k ∈ o1' ↔ (r1 k).isSome) (h2' : ∀ k, k ∈ o2' ↔ (r2 k).isSome) :
    merge r1 r2 o1 o2 = merge r1 r2 o1' o2' := by
  funext k
  simp only [merge, merge2_get, merge1_get, h2 k, h1 k, h2' k, h1' k]

/-- Concrete case: both have a rule for kind 0, one each for 1 and 2. -/
example : ∃ (r1 r2 : Reducer Unit Nat Nat) (o1 o2 : List Nat), (∀ k, k ∈ o1 ↔ (r1 k).isSome) ∧
    (∀ k, k ∈ o2 ↔ (r2 k).isSome) ∧ (∃ k, (r1 k).isSome ∧ (r2 k).isSome) ∧ o1.length = 2 ∧ o2.length = 2 :=
  ⟨fun k => if k = 0 ∨ k = 1 then some (ROp.red 5 (.removeChild 0)) else none,
   fun k => if k = 0 ∨ k = 2 then some (ROp.red 5 (.promoteChild 0)) else none, [1, 0], [0, 2],
   by intro k; simp only; split <;> rename_i h <;> simp <;> omega,
   by intro k; simp only; split <;> rename_i h <;> simp <;> omega, ⟨0, by simp⟩, rfl, rfl⟩

/-! ### C31: chains -/

omit [DecidableEq α] in
theorem bind_assoc {A B C : Type} (x : Out A) (f : A → Out B) (g : B → Out C) :
    (x.bind f).bind g = x.bind fun a => (f a).bind g := by cases x <;> rfl

omit [DecidableEq α] in
/-- **C31.** Running a chain is running the two one after the other, Chain is associative with nil as
unit on both sides. -/
theorem C31_chain (r1 r2 r3 : Red σ α V) :
    (∀ p s, callIf (chain r1 r2) p s = (callIf r1 p s).bind fun q => callIf r2 q.1 q.2) ∧
    chain (chain r1 r2) r3 = chain r1 (chain r2 r3) ∧ chain none r1 = r1 ∧ chain r1 none = r1 := by
  refine ⟨?_, ?_, ?_, ?_⟩
  · intro p s
    cases r1 with
    | none => cases r2 <;> simp [chain, callIf]
    | some f1 =>
      cases r2 with
      | none => simp only [chain, callIf]; cases f1 p s <;> simp
      | some f2 => simp [chain, callIf]
  · cases r1 <;> cases r2 <;> cases r3 <;> simp [chain, bind_assoc]
  · cases r1 <;> rfl
  · cases r1 <;> rfl

omit [DecidableEq α] in
/-- **C31**, If: exactly the branch selected by the condition runs, on the node and state as they are
after everything chained before (and after evaluating the condition); a nil condition counts as
false, nil branches do nothing. -/
theorem C31_if (r : Red σ α V) (c : Cond σ α V) (t e : Red σ α V) (p q q' : PN α V) (s s' s'' : σ)
    (hr : callIf r p s = .ok (q, s')) :
    (∀ c', c = some c' → c' q s' = .ok (true, q', s'') → callIf (thenIf r c t e) p s = callIf t q' s'') ∧
    (∀ c', c = some c' → c' q s' = .ok (false, q', s'') → callIf (thenIf r c t e) p s = callIf e q' s'') ∧
    (c = none → callIf (thenIf r c t e) p s = callIf e q s') := by
  have h : callIf (thenIf r c t e) p s = callIf (ifRed c t e) q s' := by
    rw [thenIf, (C31_chain r (ifRed c t e) none).1, hr]; rfl
  rw [h]
  refine ⟨?_, ?_, ?_⟩
  · rintro c' rfl hc
    simp [ifRed, callIf, hc]
  · rintro c' rfl hc
    simp [ifRed, callIf, hc]
  · rintro rfl
    rfl

/-- A list of chained method calls on a reduction. -/
def chainAll (fuel : Nat) (r : Red σ α V) (os : List (ROp α)) : Red σ α V := os.foldl (ROp.then fuel) r

/-- The operations one after the other. -/
def runAll (fuel : Nat) : List (ROp α) → PN α V → Out (PN α V)
  | [], p => .ok p
  | o :: os, p => (o.apply fuel p).bind fun q => runAll fuel os q

/-- **C31**, chained methods: a chain of any length runs `r` and then the operations in the order
written. -/
theorem C31_methods (fuel : Nat) (os : List (ROp α)) : ∀ (r : Red σ α V) p s,
    callIf (chainAll fuel r os) p s = (callIf r p s).bind fun q => (runAll fuel os q.1).bind fun t => .ok (t, q.2) := by
  induction os with
  | nil =>
    intro r p s
    simp only [chainAll, List.foldl_nil, runAll, Out.bind_ok]
    cases callIf r p s <;> simp
  | cons o os ih =>
    intro r p s
    have h := ih (ROp.then fuel r o) p s
    simp only [chainAll, List.foldl_cons] at h ⊢
    rw [h, ROp.then, (C31_chain r (o.red fuel) none).1, bind_assoc]
    congr 1
    funext q
    simp only [ROp.red, lift1, callIf, runAll, bind_assoc, Out.bind_ok]

/-- Concrete case: RemoveChild(0).PromoteSingleChild() on a node with two children. -/
example : callIf (chainAll 5 none [.removeChild 0, .promoteSingleChild])
    (.node ⟨0, 0, 1, 1⟩ [.node ⟨1, 0, 0, 0⟩ [], .node ⟨2, 7, 0, 0⟩ []]) () =
    .ok (.node (⟨2, 7, 0, 0⟩ : Lexeme Nat Nat) [], ()) := rfl

/-! ### C32: Clone -/

mutual
theorem clone_shape : ∀ t : PN α V,
    SameShape (fun l l' => l.kind = l'.kind ∧ l.val = l'.val ∧ l'.line = 0 ∧ l'.col = 0) t (clone t)
  | .node l ks => by
    rw [clone]
    obtain ⟨h1, h2⟩ := clones_shape ks
    exact .node ⟨rfl, rfl, rfl, rfl⟩ h1 h2
theorem clones_shape : ∀ ts : List (PN α V), ts.length = (clones ts).length ∧ ∀ x ∈ ts.zip (clones ts),
    SameShape (fun l l' => l.kind = l'.kind ∧ l.val = l'.val ∧ l'.line = 0 ∧ l'.col = 0) x.1 x.2
  | [] => ⟨rfl, fun x hx => by cases hx⟩
  | t :: ts => by
    obtain ⟨h1, h2⟩ := clones_shape ts
    have h0 := clone_shape t
    rw [clones]
    refine ⟨by simp [h1], fun x hx => ?_⟩
    rw [List.zip_cons_cons, List.mem_cons] at hx
    rcases hx with rfl | hx
    · exact h0
    · exact h2 x hx
end

/-- **C32**, kinds, values and shape: the clone has the same shape with the same kinds and values at
corresponding nodes, and position (0, 0) everywhere. Missing from the full statement: positions are
not preserved (false, see `C32_refuted`); parent links are C58. -/
theorem C32_clone_partial (t : PN α V) :
    SameShape (fun l l' => l.kind = l'.kind ∧ l.val = l'.val ∧ l'.line = 0 ∧ l'.col = 0) t (clone t) :=
  clone_shape t

/-- **C32** is false for positions: Clone does not copy them. -/
theorem C32_refuted : ∃ t : PN Nat Nat, ¬ SameShape (fun l l' => l.line = l'.line ∧ l.col = l'.col) t (clone t) := by
  refine ⟨.node ⟨0, 0, 3, 1⟩ [], fun h => ?_⟩
  cases h with
  | node h _ _ => simp at h

end Verif.Props.Tree
