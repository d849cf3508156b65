import Verif.Proofs.TreeHeapOps
/- Making trees in memory: RawReduce, Clone, the parser's toPN and New. -/
namespace Verif.Spec.TreeHeap
open Verif.Spec Verif.TreeHeap

variable {α V : Type}

/-! ### Filling the children of a new node -/

/-- From `h` a new node was made with room for the children; those made so far are `ks`, and `m` are missing. -/
structure Build (lk : Bool) (h h1 : Heap α V) (l : Lexeme α V) (n : Nat) (ks : List (PN α V)) (m : Nat) : Prop where
  frame : Frame h h1 [] []
  cell : h1.cells[h.cells.length]? = some ⟨l, none, ⟨h.arrs.length, n⟩⟩
  kids : ∃ os F A, h1.arrs[h.arrs.length]? = some (os ++ List.replicate m none) ∧ os.length + m = n ∧ Reps lk h1 ks h.cells.length os F A ∧
    F.Nodup ∧ A.Nodup ∧ (∀ x ∈ F, h.cells.length < x) ∧ ∀ x ∈ A, h.arrs.length < x

theorem Build.start (lk : Bool) (h : Heap α V) (l : Lexeme α V) (n : Nat) :
    Build lk h ((h.newArr (List.replicate n none)).newCell ⟨l, none, ⟨h.arrs.length, n⟩⟩) l n [] n := by
  refine ⟨⟨?_, ?_, ?_, ?_⟩, ?_, [], [], [], ?_, by simp, ⟨rfl, rfl, rfl⟩, by simp, by simp, by simp, by simp⟩
  · simp [Heap.newCell, Heap.newArr]
  · simp [Heap.newCell, Heap.newArr]
  · intro x hx _; simp [Heap.newCell, Heap.newArr, List.getElem?_append_left hx]
  · intro x hx _; simp [Heap.newCell, Heap.newArr, List.getElem?_append_left hx]
  · simp [Heap.newCell, Heap.newArr]
  · simp [Heap.newCell, Heap.newArr]

theorem Frame.weaken {h h' : Heap α V} {F A} (hf : Frame h h' [] []) : Frame h h' F A :=
  ⟨hf.1, hf.2.1, fun x hx _ => hf.2.2.1 x hx (by simp), fun x hx _ => hf.2.2.2 x hx (by simp)⟩

theorem Frame.old {h h' : Heap α V} (hf : Frame h h' [] []) {lk : Bool} {t p a F A} (hr : Rep lk h t p a F A) : Rep lk h' t p a F A :=
  hr.frame (fun x hx => .of_eq (hf.2.2.1 x (hr.bound.1 x hx) (by simp))) (fun x hx => hf.2.2.2 x (hr.bound.2 x hx) (by simp))

theorem Frame.olds {h h' : Heap α V} (hf : Frame h h' [] []) {lk : Bool} {ts p os F A} (hr : Reps lk h ts p os F A) : Reps lk h' ts p os F A :=
  hr.frame (fun x hx => .of_eq (hf.2.2.1 x (hr.bound.1 x hx) (by simp))) (fun x hx => hf.2.2.2 x (hr.bound.2 x hx) (by simp))

theorem Frame.trans0 {h h' h'' : Heap α V} (h1 : Frame h h' [] []) (h2 : Frame h' h'' [] []) : Frame h h'' [] [] :=
  Frame.trans h1 h2 (by intro x hx; simp at hx) (by intro x hx; simp at hx)

/-- One more child. -/
theorem Build.step {lk : Bool} {h h1 h2 : Heap α V} {l n ks m t x F1 A1} (hb : Build lk h h1 l n ks (m + 1)) (hf : Frame h1 h2 [] [])
    (hr : Rep lk h2 t (some h.cells.length) x F1 A1) (n1 : F1.Nodup) (n2 : A1.Nodup) (f1 : ∀ y ∈ F1, h1.cells.length ≤ y) (f2 : ∀ y ∈ A1, h1.arrs.length ≤ y) :
    Build lk h (h2.store ⟨h.arrs.length, n⟩ ks.length (some x)) l n (ks ++ [t]) m := by
  obtain ⟨fr, cl, os, F, A, b1, b2, b3, b4, b5, b6, b7⟩ := hb
  have hlc := (List.getElem?_eq_some_iff.1 cl).1
  have hla := (List.getElem?_eq_some_iff.1 b1).1
  have hosl := b3.length
  have e2 : h2.arrs[h.arrs.length]? = some (os ++ List.replicate (m + 1) none) := by rw [hf.2.2.2 _ hla (by simp)]; exact b1
  have hla2 := (List.getElem?_eq_some_iff.1 e2).1
  have hst : ∀ y, y ≠ h.arrs.length → (h2.store ⟨h.arrs.length, n⟩ ks.length (some x)).arrs[y]? = h2.arrs[y]? := by
    intro y hy
    simp [Heap.store, hy.symm]
  have hF : ∀ y ∈ F, y < h1.cells.length := b3.bound.1
  have hA : ∀ y ∈ A, y < h1.arrs.length := b3.bound.2
  have hold := hf.olds b3
  refine ⟨?_, ?_, os ++ [some x], F ++ F1, A ++ A1, ?_, ?_, ?_, ?_, ?_, ?_, ?_⟩
  · have := fr.trans0 hf
    refine ⟨this.1, by simpa [Heap.store] using this.2.1, this.2.2.1, fun y hy hn => ?_⟩
    rw [hst y (by omega)]
    exact this.2.2.2 y hy hn
  · show h2.cells[_]? = _
    rw [hf.2.2.1 _ hlc (by simp)]; exact cl
  · simp only [Heap.store, e2, Option.getD_some]
    rw [List.getElem?_set_self hla2, ← hosl, List.set_append_right _ _ (Nat.le_refl _)]
    simp [List.replicate_succ]
  · simp; omega
  · have hk : Reps lk h2 (ks ++ [t]) h.cells.length (os ++ [some x]) (F ++ F1) (A ++ A1) :=
      hold.append ⟨x, [], F1, A1, [], [], rfl, hr, ⟨rfl, rfl, rfl⟩, by simp, by simp⟩
    refine hk.frame (fun y _ => .of_eq rfl) (fun y hy => hst y ?_)
    rcases List.mem_append.1 hy with hy | hy
    · have := b7 y hy; omega
    · have := f2 y hy; omega
  · refine List.nodup_append.2 ⟨b4, n1, ?_⟩
    intro y hy z hz e
    have := hF y hy
    have := f1 z hz
    omega
  · refine List.nodup_append.2 ⟨b5, n2, ?_⟩
    intro y hy z hz e
    have := hA y hy
    have := f2 z hz
    omega
  · intro y hy
    rcases List.mem_append.1 hy with hy | hy
    · exact b6 y hy
    · have := f1 y hy; omega
  · intro y hy
    rcases List.mem_append.1 hy with hy | hy
    · exact b7 y hy
    · have := f2 y hy; omega

/-- The node with all its children. -/
theorem Build.done {lk : Bool} {h h1 : Heap α V} {l n ks} (hb : Build lk h h1 l n ks 0) :
    ∃ F A, Rep lk h1 (.node l ks) none h.cells.length F A ∧ F.Nodup ∧ A.Nodup ∧ (∀ x ∈ F, h.cells.length ≤ x) ∧ ∀ x ∈ A, h.arrs.length ≤ x := by
  obtain ⟨fr, cl, os, F, A, b1, b2, b3, b4, b5, b6, b7⟩ := hb
  simp only [List.replicate_zero, List.append_nil] at b1
  refine ⟨h.cells.length :: F, h.arrs.length :: A, ⟨_, os, F, A, cl, rfl, fun _ => rfl, b1, by simp; omega, ?_, rfl, rfl⟩, ?_, ?_, ?_, ?_⟩
  · rw [List.take_of_length_le (by simp; omega)]
    exact b3
  · exact List.nodup_cons.2 ⟨fun hm => Nat.lt_irrefl _ (b6 _ hm), b4⟩
  · exact List.nodup_cons.2 ⟨fun hm => Nat.lt_irrefl _ (b7 _ hm), b5⟩
  · intro x hx
    rcases List.mem_cons.1 hx with rfl | hx
    · exact Nat.le_refl _
    · exact Nat.le_of_lt (b6 x hx)
  · intro x hx
    rcases List.mem_cons.1 hx with rfl | hx
    · exact Nat.le_refl _
    · exact Nat.le_of_lt (b7 x hx)

theorem child_heap [DecidableEq α] {lk : Bool} {h h1 : Heap α V} {l ka k kb p a F A} (hr : Rep lk h (.node l (ka ++ k :: kb)) p a F A)
    (hf : Frame h h1 [] []) : ∃ x F1 A1, child h1 a (ka.length : Int) = .ok (some x) ∧ Rep lk h k (some a) x F1 A1 := by
  obtain ⟨c, ar, F', A', h1', h2, _, h4, h5, h6, rfl, rfl⟩ := hr
  obtain ⟨oa, o2, Fa, F2, Aa, A2, g1, g2, e1, rfl, rfl⟩ := h6.split
  obtain ⟨x, ob, F1, A1, Fb, Ab, rfl, g3, g4, rfl, rfl⟩ := g2
  have e1c : h1.cells[a]? = some c := by rw [hf.2.2.1 a (List.getElem?_eq_some_iff.1 h1').1 (by simp)]; exact h1'
  have e1a : h1.arrs[c.C.arr]? = some ar := by rw [hf.2.2.2 _ (List.getElem?_eq_some_iff.1 h4).1 (by simp)]; exact h4
  refine ⟨x, F1, A1, ?_, g3⟩
  have hlen : c.C.len = (ka ++ k :: kb).length := by
    have := h6.length
    simp only [List.length_take] at this
    omega
  have hg : getIdx c (ka.length : Int) = _ := getIdx_cell hlen (Tree.sel_self (by simp))
  simp only [child, deref_some e1c, Out.bind_ok, hg, vals_eq e1a, e1]
  rw [← g1.length]
  exact Tree.index_mid _ _ _

/-! ### RawReduce -/

variable [DecidableEq α] {σ : Type}

mutual
theorem rawReduce_new {rH : Reducer σ α V} {r : Tree.Reducer σ α V} (hR : ∀ k, RefRed (rH k).join (r k).join) :
    ∀ (t : PN α V) (n : Nat) (h : Heap α V) p a F A s, depth t ≤ n → Rep false h t p a F A →
      New h (Tree.rawReduce r t s) (rawReduce rH n h a s)
  | .node l ks, 0, h, p, a, F, A, s, hd, hr => by simp [depth] at hd
  | .node l ks, n + 1, h, p, a, F, A, s, hd, hr => by
    obtain ⟨c, ar, e1, e2, e3, e4, e5⟩ := hr.cell
    simp only [rawReduce, Tree.rawReduce, deref_some e1, Out.bind_ok, e2, e3]
    have key := rawReduces_new hR ks [] n h _ l p a F A s ks.length [] (by simp only [depth] at hd; omega) hr (Build.start false h l ks.length) rfl
    simp only [List.length_nil, List.nil_append] at key
    match ho : Tree.rawReduces r ks s, key with
    | .panic, key => rw [key]; rfl
    | .fuel, key => rw [key]; rfl
    | .ok (ks', s'), ⟨h', e, hb⟩ =>
      rw [e]
      simp only [Out.bind_ok]
      obtain ⟨F', A', g1, g2, g3, g4, g5⟩ := hb.done
      have hk := hR l.kind
      match hH : (rH l.kind).join, hP : (r l.kind).join, hk with
      | none, none, _ => exact ⟨h', _, F', A', rfl, ⟨g1, g2, g3⟩, hb.frame, g4, g5⟩
      | some f, none, hk => exact False.elim hk
      | none, some g, hk => exact False.elim hk
      | some f, some g, hk =>
        have := hk h' h.cells.length (.node l ks') F' A' s' ⟨g1, g2, g3⟩
        simp only
        match g (.node l ks') s', this with
        | .panic, this => rw [show f h' h.cells.length s' = .panic from this]; rfl
        | .fuel, this => rw [show f h' h.cells.length s' = .fuel from this]; rfl
        | .ok (t', b), ⟨h'', F'', A'', e', ho', hf', w1, w2⟩ =>
          rw [e']
          refine ⟨h'', _, F'', A'', rfl, ho', ⟨?_, ?_, ?_, ?_⟩, ?_, ?_⟩
          · have := hb.frame.1; have := hf'.1; omega
          · have := hb.frame.2.1; have := hf'.2.1; omega
          · intro x hx _
            rw [hf'.2.2.1 x (by have := hb.frame.1; omega) (fun hm => by have := g4 x hm; omega), hb.frame.2.2.1 x hx (by simp)]
          · intro x hx _
            rw [hf'.2.2.2 x (by have := hb.frame.2.1; omega) (fun hm => by have := g5 x hm; omega), hb.frame.2.2.2 x hx (by simp)]
          · intro x hx
            rcases w1 x hx with h | h
            · exact g4 x h
            · have := hb.frame.1; omega
          · intro x hx
            rcases w2 x hx with h | h
            · exact g5 x h
            · have := hb.frame.2.1; omega
theorem rawReduces_new {rH : Reducer σ α V} {r : Tree.Reducer σ α V} (hR : ∀ k, RefRed (rH k).join (r k).join) :
    ∀ (ks ka : List (PN α V)) (n : Nat) (h h1 : Heap α V) l p a F A s m ks', depths ks ≤ n → Rep false h (.node l (ka ++ ks)) p a F A →
      Build false h h1 l m ks' ks.length → ks'.length = ka.length →
      match Tree.rawReduces r ks s with
      | .ok (ts, s') => ∃ h', reduceLoop (rawReduce rH n) a ⟨h.arrs.length, m⟩ ks.length ka.length h1 s = .ok (h', s') ∧ Build false h h' l m (ks' ++ ts) 0
      | .panic => reduceLoop (rawReduce rH n) a ⟨h.arrs.length, m⟩ ks.length ka.length h1 s = .panic
      | .fuel => reduceLoop (rawReduce rH n) a ⟨h.arrs.length, m⟩ ks.length ka.length h1 s = .fuel
  | [], ka, n, h, h1, l, p, a, F, A, s, m, ks', hd, hr, hb, hl => ⟨h1, rfl, by simpa using hb⟩
  | t :: ts, ka, n, h, h1, l, p, a, F, A, s, m, ks', hd, hr, hb, hl => by
    obtain ⟨x, F1, A1, hx, hrx⟩ := child_heap hr hb.frame
    simp only [depths] at hd
    have hnew := rawReduce_new hR t n h1 _ x F1 A1 s (by omega) (hb.frame.old hrx)
    simp only [Tree.rawReduces, List.length_cons, reduceLoop, hx, Out.bind_ok]
    match ho : Tree.rawReduce r t s, hnew with
    | .panic, hnew => rw [hnew]; rfl
    | .fuel, hnew => rw [hnew]; rfl
    | .ok (t', s'), ⟨h2, y, F2, A2, e, ho', hf2, w1, w2⟩ =>
      rw [e]
      simp only [Out.bind_ok]
      have hb' := hb.step hf2 (ho'.1.anyP _) ho'.2.1 ho'.2.2 w1 w2
      have ih := rawReduces_new hR ts (ka ++ [t]) n h _ l p a F A s' m (ks' ++ [t']) (by omega) (by simpa using hr) hb' (by simp [hl])
      rw [hl] at ih
      simp only [List.length_append, List.length_cons, List.length_nil, Nat.zero_add] at ih
      match ho2 : Tree.rawReduces r ts s', ih with
      | .panic, ih => exact ih
      | .fuel, ih => exact ih
      | .ok (ts', s''), ⟨h', e', hb''⟩ => exact ⟨h', e', by simpa using hb''⟩
end

/-! ### Reductions built from the operations -/

omit [DecidableEq α] in
theorem refChain {f1 f2 : Red σ α V} {g1 g2 : Tree.Red σ α V} (h1 : RefRed f1 g1) (h2 : RefRed f2 g2) : RefRed (chain f1 f2) (Tree.chain g1 g2) := by
  match f1, g1, h1 with
  | none, none, _ => exact h2
  | some f1, some g1, h1 =>
    match f2, g2, h2 with
    | none, none, _ => exact h1
    | some f2, some g2, h2 => exact fun h a t F A s ho => SimL.bind (h1 h a t F A s ho) fun t' b h' F' A' ho' => h2 h' a t' F' A' b ho'

omit [DecidableEq α] in
theorem refCallIf {f : Red σ α V} {g : Tree.Red σ α V} (h1 : RefRed f g) : RefFn (callIf f) (Tree.callIf g) := by
  match f, g, h1 with
  | none, none, _ => exact fun h a t F A s ho => SimL.ok s ho
  | some f, some g, h1 => exact h1

theorem bindOk {A B C : Type} (x : Out A) (e : A → B) (f : B → Out C) : ((x.bind fun r => .ok (e r)).bind f) = x.bind fun r => f (e r) := by
  cases x <;> rfl

omit [DecidableEq α] in
theorem refIf {c : Cond σ α V} {d : Tree.Cond σ α V} {f1 f2 : Red σ α V} {g1 g2 : Tree.Red σ α V} (hc : RefCond c d) (h1 : RefRed f1 g1) (h2 : RefRed f2 g2) :
    RefRed (ifRed c f1 f2) (Tree.ifRed d g1 g2) := by
  match c, d, hc with
  | none, none, _ => exact refCallIf h2
  | some c, some d, hc =>
    intro h a t F A s ho
    have := SimL.bind (k := fun r => if r.2.1 then Tree.callIf g1 r.1 r.2.2 else Tree.callIf g2 r.1 r.2.2)
      (kH := fun r => if r.2.1 then callIf f1 r.1 a r.2.2 else callIf f2 r.1 a r.2.2) (hc h a t F A s ho) (by
        intro t' b h' F' A' ho'
        simp only
        split
        · exact refCallIf h1 _ _ _ _ _ _ ho'
        · exact refCallIf h2 _ _ _ _ _ _ ho')
    rw [bindOk (e := fun r : Bool × PN α V × σ => (r.2.1, r.1, r.2.2)), bindOk (e := fun r : Bool × Heap α V × σ => (r.2.1, r.1, r.2.2))] at this
    exact this

theorem refChildIs (i : Int) (k : α) : RefCond (childIsC (σ := σ) (V := V) i k) (Tree.childIsC i k) := by
  intro h a t F A s ho
  simp only [childIs_eq ho]
  match Tree.childIs t i k with
  | .ok b => exact SimL.ok _ ho
  | .panic => rfl
  | .fuel => rfl

theorem refOp (grow) (fuel : Nat) (o : Tree.ROp α) : RefRed (red (σ := σ) (V := V) grow fuel o) (o.red fuel) :=
  fun _ _ _ _ _ s ho => (apply_sim grow fuel o ho).with s

/-! ### Clone and toPN -/

omit [DecidableEq α] in
theorem setNode {lk : Bool} {h : Heap α V} {l ks p a F A c} (hr : Rep lk h (.node l ks) p a F A) (nF : F.Nodup) (hc : h.cells[a]? = some c) (l' q) :
    Rep lk (h.put a { c with lx := l', P := q }) (.node l' ks) q a F A := by
  obtain ⟨c', ar, F', A', h1, h2, h3, h4, h5, h6, rfl, rfl⟩ := hr
  rw [hc] at h1
  cases h1
  refine ⟨_, ar, F', A', put_same _ (List.getElem?_eq_some_iff.1 hc).1, rfl, fun _ => rfl, h4, h5, ?_, rfl, rfl⟩
  refine h6.frame (fun x hx => .of_eq (put_ne _ (fun e => (List.nodup_cons.1 nF).1 ((show x = a from e) ▸ hx)))) (fun _ _ => rfl)

omit [DecidableEq α] in
theorem Frame.put {h h' : Heap α V} (hf : Frame h h' [] []) {x} (c) (hx : h.cells.length ≤ x) : Frame h (h'.put x c) [] [] := by
  refine ⟨by simpa using hf.1, hf.2.1, fun y hy hn => ?_, hf.2.2.2⟩
  rw [put_ne _ (by omega)]
  exact hf.2.2.1 y hy hn

omit [DecidableEq α] in
/-- The step of the loops of Clone and toPN after the recursive call. -/
theorem Build.stepL {h h1 h2 : Heap α V} {l n ks m t x F1 A1} (hb : Build true h h1 l n ks (m + 1)) (hf : Frame h1 h2 [] [])
    (hr : Linked h2 none x t F1 A1) (f1 : ∀ y ∈ F1, h1.cells.length ≤ y) (f2 : ∀ y ∈ A1, h1.arrs.length ≤ y) :
    ∃ c, h2.cells[x]? = some c ∧
      Build true h ((h2.put x { c with P := some h.cells.length }).store ⟨h.arrs.length, n⟩ ks.length (some x)) l n (ks ++ [t]) m := by
  obtain ⟨lt, kt⟩ := t
  obtain ⟨c, ar, e1, e2, _⟩ := hr.1.cell
  refine ⟨c, e1, ?_⟩
  subst e2
  have := setNode hr.1 hr.2.1 e1 c.lx (some h.cells.length)
  exact hb.step (hf.put _ (f1 x hr.1.root_mem)) this hr.2.1 hr.2.2 f1 f2

mutual
theorem clone_newL : ∀ (t : PN α V) (n : Nat) (h : Heap α V) p a F A, depth t ≤ n → Rep false h t p a F A →
      NewL h (.ok (Tree.clone t)) (clone n h a)
  | .node l ks, 0, h, p, a, F, A, hd, hr => by simp [depth] at hd
  | .node l ks, n + 1, h, p, a, F, A, hd, hr => by
    obtain ⟨c, ar, e1, e2, e3, e4, e5⟩ := hr.cell
    simp only [clone, Tree.clone, deref_some e1, Out.bind_ok, e2, e3]
    obtain ⟨h', e, hb⟩ := clones_newL ks [] n h _ l p a F A ks.length [] _ (by simp only [depth] at hd; omega) hr
      (Build.start true h ⟨l.kind, l.val, 0, 0⟩ ks.length) rfl
    simp only [List.length_nil, List.nil_append] at e hb
    rw [e]
    obtain ⟨F', A', g1, g2, g3, g4, g5⟩ := hb.done
    exact ⟨h', _, F', A', rfl, ⟨g1, g2, g3⟩, hb.frame, g4, g5⟩
theorem clones_newL : ∀ (ks ka : List (PN α V)) (n : Nat) (h h1 : Heap α V) l p a F A m ks' l', depths ks ≤ n → Rep false h (.node l (ka ++ ks)) p a F A →
      Build true h h1 l' m ks' ks.length → ks'.length = ka.length →
      ∃ h', cloneLoop (clone n) a h.cells.length ⟨h.arrs.length, m⟩ ks.length ka.length h1 = .ok h' ∧ Build true h h' l' m (ks' ++ Tree.clones ks) 0
  | [], ka, n, h, h1, l, p, a, F, A, m, ks', l', hd, hr, hb, hl => ⟨h1, rfl, by simpa [Tree.clones] using hb⟩
  | t :: ts, ka, n, h, h1, l, p, a, F, A, m, ks', l', hd, hr, hb, hl => by
    obtain ⟨x, F1, A1, hx, hrx⟩ := child_heap hr hb.frame
    simp only [depths] at hd
    obtain ⟨h2, y, F2, A2, e, ho', hf2, w1, w2⟩ := clone_newL t n h1 _ x F1 A1 (by omega) (hb.frame.old hrx)
    simp only [Tree.clones, List.length_cons, cloneLoop, hx, Out.bind_ok, e]
    obtain ⟨c, hc, hb'⟩ := hb.stepL hf2 ho' w1 w2
    obtain ⟨h', e', hb''⟩ := clones_newL ts (ka ++ [t]) n h _ l p a F A m (ks' ++ [Tree.clone t]) l' (by omega) (by simpa using hr) hb' (by simp [hl])
    rw [hl] at e'
    simp only [List.length_append, List.length_cons, List.length_nil, Nat.zero_add] at e'
    simp only [deref_some hc, Out.bind_ok]
    exact ⟨h', e', by simpa using hb''⟩
end

theorem kidsPN_newL {V : Type} {rec : Heap Nat V → Packrat.Def → Out (Heap Nat V × Nat)} {recP : Packrat.Def → Out (PN Nat V)} (get : Packrat.Key → Packrat.Def)
    (hrec : ∀ h d, NewL h (recP d) (rec h d)) :
    ∀ (keys : List Packrat.Key) (h h1 : Heap Nat V) (ks : List (PN Nat V)) (m : Nat) (l : Lexeme Nat V), Build true h h1 l m ks keys.length →
      match Packrat.kidsPN recP get keys with
      | .ok ts => ∃ h', kidsPN rec get h.cells.length ⟨h.arrs.length, m⟩ ks.length keys h1 = .ok h' ∧ Build true h h' l m (ks ++ ts) 0
      | .panic => kidsPN rec get h.cells.length ⟨h.arrs.length, m⟩ ks.length keys h1 = .panic
      | .fuel => kidsPN rec get h.cells.length ⟨h.arrs.length, m⟩ ks.length keys h1 = .fuel
  | [], h, h1, ks, m, l, hb => ⟨h1, rfl, by simpa using hb⟩
  | k :: keys, h, h1, ks, m, l, hb => by
    have hn := hrec h1 (get k)
    simp only [Packrat.kidsPN, kidsPN]
    match ho : recP (get k), hn with
    | .panic, hn => rw [hn]; rfl
    | .fuel, hn => rw [hn]; rfl
    | .ok t, ⟨h2, y, F2, A2, e, ho', hf2, w1, w2⟩ =>
      obtain ⟨c, hc, hb'⟩ := hb.stepL hf2 ho' w1 w2
      rw [e]
      simp only [Out.bind_ok, deref_some hc]
      have ih := kidsPN_newL get hrec keys h _ (ks ++ [t]) m l hb'
      simp only [List.length_append, List.length_cons, List.length_nil, Nat.zero_add] at ih
      match ho2 : Packrat.kidsPN recP get keys, ih with
      | .panic, ih => exact ih
      | .fuel, ih => exact ih
      | .ok ts, ⟨h', e', hb''⟩ => exact ⟨h', e', by simpa using hb''⟩

theorem toPN_newL {V : Type} (emptyVal : V) (lxms : List (Lexeme Nat V)) (get : Packrat.Key → Packrat.Def) :
    ∀ (n : Nat) (h : Heap Nat V) (d : Packrat.Def), NewL h (Packrat.toPN emptyVal lxms get n d) (toPN emptyVal lxms get n h d)
  | 0, h, d => rfl
  | n + 1, h, d => by
    simp only [Packrat.toPN, toPN]
    generalize hlx : pnLexeme emptyVal lxms d = lx
    have hP : ∀ ks, Packrat.nodeLexeme emptyVal lxms d ks = if lx.2 then
        (match ks with | [] => lx.1 | c :: _ => ⟨lx.1.kind, lx.1.val, c.lx.line, c.lx.col⟩) else lx.1 := by
      intro ks
      subst hlx
      unfold Packrat.nodeLexeme pnLexeme
      cases ks <;> cases lxms[d.key.start]? with
      | none => rfl
      | some l => by_cases e : l.kind = d.key.idx <;> simp [e]
    have key := kidsPN_newL get (toPN_newL emptyVal lxms get n) d.children h _ [] d.children.length lx.1 (Build.start true h lx.1 d.children.length)
    simp only [List.length_nil, List.nil_append] at key
    match ho : Packrat.kidsPN (Packrat.toPN emptyVal lxms get n) get d.children, key with
    | .panic, key => rw [key]; rfl
    | .fuel, key => rw [key]; rfl
    | .ok ts, ⟨h', e, hb⟩ =>
      rw [e]
      simp only [Out.bind_ok]
      obtain ⟨F', A', g1, g2, g3, g4, g5⟩ := hb.done
      by_cases hc : lx.2 = true ∧ d.children.length > 0
      · rw [if_pos hc, hP, if_pos hc.1]
        obtain ⟨_, cl, os, F, A, b1, b2, b3, b4, b5, b6, b7⟩ := hb
        have : os.length = d.children.length := by omega
        cases ts with
        | nil =>
          have e0 := b3.length
          simp only [List.length_nil] at e0
          have := hc.2
          omega
        | cons t ts =>
          obtain ⟨x, os', F1, A1, F2, A2, rfl, hr1, hr2, rfl, rfl⟩ := b3
          obtain ⟨lt, kt⟩ := t
          obtain ⟨c, ar, k1, k2, _⟩ := hr1.cell
          simp only [List.replicate_zero, List.append_nil] at b1
          have hv : Tree.index (h'.vals ⟨h.arrs.length, d.children.length⟩) 0 = .ok (some x) := by
            rw [vals_eq (s := ⟨h.arrs.length, d.children.length⟩) b1, List.take_of_length_le (by simp; simp at this; omega)]
            exact Tree.index_mid [] _ _
          simp only [hv, Out.bind_ok, deref_some k1, deref_some cl, k2]
          exact ⟨_, _, F', A', rfl, ⟨setNode g1 g2 cl _ none, g2, g3⟩, Frame.put ‹_› _ (Nat.le_refl _), g4, g5⟩
      · rw [if_neg hc, hP]
        by_cases hl : lx.2 = true
        · obtain ⟨_, cl, os, F, A, b1, b2, b3, b4, b5, b6, b7⟩ := id hb
          have := b3.length
          cases ts with
          | nil => rw [if_pos hl]; exact ⟨h', _, F', A', rfl, ⟨g1, g2, g3⟩, hb.frame, g4, g5⟩
          | cons t ts => exact absurd ⟨hl, by simp at this; omega⟩ hc
        · rw [if_neg hl]
          exact ⟨h', _, F', A', rfl, ⟨g1, g2, g3⟩, hb.frame, g4, g5⟩

end Verif.Spec.TreeHeap
