import Verif.Spec.TreeHeap
import Verif.Proofs.Tree
/- Lemmas: operations on trees in memory. -/
namespace Verif.Spec.TreeHeap
open Verif.Spec Verif.TreeHeap

variable {α V : Type}

mutual
theorem Rep.bound {lk : Bool} {h : Heap α V} : ∀ {t p a F A}, Rep lk h t p a F A →
    (∀ x ∈ F, x < h.cells.length) ∧ (∀ x ∈ A, x < h.arrs.length)
  | .node l ks, p, a, F, A, hr => by
    obtain ⟨c, ar, F', A', h1, _, _, h4, _, h6, rfl, rfl⟩ := hr
    have := Reps.bound h6
    have e1 := (List.getElem?_eq_some_iff.1 h1).1
    have e2 := (List.getElem?_eq_some_iff.1 h4).1
    constructor
    · intro x hx
      rcases List.mem_cons.1 hx with rfl | hx
      · exact e1
      · exact this.1 x hx
    · intro x hx
      rcases List.mem_cons.1 hx with rfl | hx
      · exact e2
      · exact this.2 x hx
theorem Reps.bound {lk : Bool} {h : Heap α V} : ∀ {ts p os F A}, Reps lk h ts p os F A →
    (∀ x ∈ F, x < h.cells.length) ∧ (∀ x ∈ A, x < h.arrs.length)
  | [], p, os, F, A, hr => by
    obtain ⟨_, rfl, rfl⟩ := hr
    simp
  | t :: ts, p, os, F, A, hr => by
    obtain ⟨a, os', F1, A1, F2, A2, _, h1, h2, rfl, rfl⟩ := hr
    have b1 := Rep.bound h1
    have b2 := Reps.bound h2
    constructor
    · intro x hx
      rcases List.mem_append.1 hx with hx | hx
      · exact b1.1 x hx
      · exact b2.1 x hx
    · intro x hx
      rcases List.mem_append.1 hx with hx | hx
      · exact b1.2 x hx
      · exact b2.2 x hx
end

/-- The node has the same lexeme and children, and with `lk` the same parent. -/
def Alike (lk : Bool) (h h' : Heap α V) (x : Nat) : Prop :=
  ∀ c, h.cells[x]? = some c → ∃ c', h'.cells[x]? = some c' ∧ c'.lx = c.lx ∧ c'.C = c.C ∧ (lk = true → c'.P = c.P)

theorem Alike.of_eq {lk : Bool} {h h' : Heap α V} {x} (e : h'.cells[x]? = h.cells[x]?) : Alike lk h h' x :=
  fun c hc => ⟨c, by rw [e, hc], rfl, rfl, fun _ => rfl⟩

mutual
theorem Rep.frame {lk : Bool} {h h' : Heap α V} : ∀ {t p a F A}, Rep lk h t p a F A →
    (∀ x ∈ F, Alike lk h h' x) → (∀ x ∈ A, h'.arrs[x]? = h.arrs[x]?) → Rep lk h' t p a F A
  | .node l ks, p, a, F, A, hr, hF, hA => by
    obtain ⟨c, ar, F', A', h1, h2, h3, h4, h5, h6, rfl, rfl⟩ := hr
    obtain ⟨c', e1, e2, e3, e4⟩ := hF a (by simp) c h1
    refine ⟨c', ar, F', A', e1, e2.trans h2, fun hl => (e4 hl).trans (h3 hl), ?_, ?_, ?_, rfl, ?_⟩
    · rw [e3, hA _ (by simp), h4]
    · rw [e3]; exact h5
    · rw [e3]
      exact Reps.frame h6 (fun x hx => hF x (by simp [hx])) (fun x hx => hA x (by simp [hx]))
    · rw [e3]
theorem Reps.frame {lk : Bool} {h h' : Heap α V} : ∀ {ts p os F A}, Reps lk h ts p os F A →
    (∀ x ∈ F, Alike lk h h' x) → (∀ x ∈ A, h'.arrs[x]? = h.arrs[x]?) → Reps lk h' ts p os F A
  | [], p, os, F, A, h, _, _ => h
  | t :: ts, p, os, F, A, hr, hF, hA => by
    obtain ⟨a, os', F1, A1, F2, A2, e, h1, h2, rfl, rfl⟩ := hr
    exact ⟨a, os', F1, A1, F2, A2, e, Rep.frame h1 (fun x hx => hF x (by simp [hx])) (fun x hx => hA x (by simp [hx])),
      Reps.frame h2 (fun x hx => hF x (by simp [hx])) (fun x hx => hA x (by simp [hx])), rfl, rfl⟩
end

theorem Rep.anyP {h : Heap α V} {t p a F A} (p') (hr : Rep false h t p a F A) : Rep false h t p' a F A := by
  cases t with
  | node l ks =>
    obtain ⟨c, ar, F', A', h1, h2, _, h⟩ := hr
    exact ⟨c, ar, F', A', h1, h2, by simp, h⟩

theorem Reps.anyP {h : Heap α V} : ∀ {ts p os F A} (p'), Reps false h ts p os F A → Reps false h ts p' os F A
  | [], _, _, _, _, _, h => h
  | _ :: _, _, _, _, _, p', ⟨a, os', F1, A1, F2, A2, e, h1, h2, e2, e3⟩ =>
    ⟨a, os', F1, A1, F2, A2, e, h1.anyP _, Reps.anyP p' h2, e2, e3⟩

mutual
theorem Rep.unlink {lk : Bool} {h : Heap α V} : ∀ {t p a F A}, Rep lk h t p a F A → Rep false h t p a F A
  | .node l ks, p, a, F, A, ⟨c, ar, F', A', h1, h2, h3, h4, h5, h6, e1, e2⟩ =>
    ⟨c, ar, F', A', h1, h2, by simp, h4, h5, Reps.unlink h6, e1, e2⟩
theorem Reps.unlink {lk : Bool} {h : Heap α V} : ∀ {ts p os F A}, Reps lk h ts p os F A → Reps false h ts p os F A
  | [], p, os, F, A, h => h
  | t :: ts, p, os, F, A, ⟨a, os', F1, A1, F2, A2, e, h1, h2, e1, e2⟩ =>
    ⟨a, os', F1, A1, F2, A2, e, Rep.unlink h1, Reps.unlink h2, e1, e2⟩
end

theorem Reps.length {lk : Bool} {h : Heap α V} : ∀ {ts p os F A}, Reps lk h ts p os F A → os.length = ts.length
  | [], _, _, _, _, ⟨e, _⟩ => by simp [e]
  | _ :: _, _, _, _, _, ⟨a, os', F1, A1, F2, A2, e, h1, h2, e2, e3⟩ => by rw [e]; simp [Reps.length h2]

theorem Reps.append {lk : Bool} {h : Heap α V} : ∀ {ts p os F A ts' os' F' A'}, Reps lk h ts p os F A →
    Reps lk h ts' p os' F' A' → Reps lk h (ts ++ ts') p (os ++ os') (F ++ F') (A ++ A')
  | [], p, os, F, A, ts', os', F', A', hr, h => by
    obtain ⟨rfl, rfl, rfl⟩ := hr
    exact h
  | t :: ts, p, os, F, A, ts', os', F', A', hr, h => by
    obtain ⟨a, os1, F1, A1, F2, A2, rfl, h1, h2, rfl, rfl⟩ := hr
    exact ⟨a, os1 ++ os', F1, A1, F2 ++ F', A2 ++ A', rfl, h1, h2.append h, by simp, by simp⟩

theorem Reps.split {lk : Bool} {h : Heap α V} : ∀ {ts p os F A ts'}, Reps lk h (ts ++ ts') p os F A →
    ∃ o1 o2 F1 F2 A1 A2, Reps lk h ts p o1 F1 A1 ∧ Reps lk h ts' p o2 F2 A2 ∧ os = o1 ++ o2 ∧ F = F1 ++ F2 ∧ A = A1 ++ A2
  | [], p, os, F, A, ts', hr => ⟨[], os, [], F, [], A, ⟨rfl, rfl, rfl⟩, hr, rfl, rfl, rfl⟩
  | t :: ts, p, os, F, A, ts', hr => by
    obtain ⟨a, os1, F1, A1, F2, A2, rfl, h1, h2, rfl, rfl⟩ := hr
    obtain ⟨o1, o2, G1, G2, B1, B2, e1, e2, rfl, rfl, rfl⟩ := Reps.split h2
    exact ⟨some a :: o1, o2, F1 ++ G1, G2, A1 ++ B1, B2, ⟨a, o1, F1, A1, G1, B1, rfl, h1, e1, rfl, rfl⟩, e2, rfl, by simp, by simp⟩

theorem Rep.root_mem {lk : Bool} {h : Heap α V} {t p a F A} (hr : Rep lk h t p a F A) : a ∈ F := by
  cases t with
  | node l ks =>
    obtain ⟨c, ar, F', A', _, _, _, _, _, _, rfl, _⟩ := hr
    simp

theorem Reps.addrs {lk : Bool} {h : Heap α V} : ∀ {ts p os F A}, Reps lk h ts p os F A → ∀ o ∈ os, ∃ x ∈ F, o = some x
  | [], _, _, _, _, ⟨e, _⟩ => by simp [e]
  | _ :: _, _, _, _, _, ⟨a, os', F1, A1, F2, A2, e, h1, h2, e2, e3⟩ => by
    intro o ho
    rw [e] at ho
    rcases List.mem_cons.1 ho with rfl | ho
    · exact ⟨a, by rw [e2]; simp [h1.root_mem], rfl⟩
    · obtain ⟨x, hx, e⟩ := Reps.addrs h2 o ho
      exact ⟨x, by rw [e2]; simp [hx], e⟩

/-! ### Heap operations -/

theorem deref_some {h : Heap α V} {a c} (e : h.cells[a]? = some c) : h.deref (some a) = .ok c := by
  simp [Heap.deref, e]

theorem vals_eq {h : Heap α V} {s : Slice} {ar} (e : h.arrs[s.arr]? = some ar) : h.vals s = ar.take s.len := by
  simp [Heap.vals, e]

theorem put_cells (h : Heap α V) (a c x) : (h.put a c).cells[x]? = if x = a ∧ a < h.cells.length then some c else h.cells[x]? := by
  simp only [Heap.put, List.getElem?_set]
  by_cases e : a = x
  · subst e
    by_cases e2 : a < h.cells.length
    · simp [e2]
    · simp [e2]
  · simp [e, Ne.symm e]

theorem put_same {h : Heap α V} {a} (c) (ha : a < h.cells.length) : (h.put a c).cells[a]? = some c := by
  rw [put_cells, if_pos ⟨rfl, ha⟩]

theorem put_ne {h : Heap α V} {a x} (c) (ha : x ≠ a) : (h.put a c).cells[x]? = h.cells[x]? := by
  rw [put_cells, if_neg (fun e => ha e.1)]

@[simp] theorem put_arrs (h : Heap α V) (a c) : (h.put a c).arrs = h.arrs := rfl
@[simp] theorem put_length (h : Heap α V) (a c) : (h.put a c).cells.length = h.cells.length := by simp [Heap.put]

/-- What `append` does. -/
theorem append_spec (grow : Nat → Nat → Nat) (h : Heap α V) {s : Slice} {ar} (vs) (ha : h.arrs[s.arr]? = some ar)
    (hl : s.len ≤ ar.length) : ∃ h' s' ar', h.append grow s vs = (h', s') ∧ h'.cells = h.cells ∧
      h'.arrs[s'.arr]? = some ar' ∧ s'.len ≤ ar'.length ∧ ar'.take s'.len = ar.take s.len ++ vs ∧
      s'.len = s.len + vs.length ∧ (s'.arr = s.arr ∨ s'.arr = h.arrs.length) ∧ h.arrs.length ≤ h'.arrs.length ∧
      ∀ x < h.arrs.length, x ≠ s.arr → h'.arrs[x]? = h.arrs[x]? := by
  have hlt := (List.getElem?_eq_some_iff.1 ha).1
  unfold Heap.append
  simp only [ha, Option.getD_some]
  by_cases hc : s.len + vs.length ≤ ar.length
  · rw [if_pos hc]
    refine ⟨_, _, ar.take s.len ++ vs ++ ar.drop (s.len + vs.length), rfl, rfl, ?_, ?_, ?_, rfl, .inl rfl, by simp, ?_⟩
    · simp [hlt]
    · simp; omega
    · rw [List.take_append_of_le_length (by simp; omega), List.take_of_length_le (by simp; omega)]
    · intro x hx hne
      simp [hne.symm]
  · rw [if_neg hc]
    refine ⟨_, _, ar.take s.len ++ vs ++ List.replicate (grow ar.length (s.len + vs.length)) none, rfl, rfl, ?_, ?_, ?_, rfl, .inr rfl,
      by simp [Heap.newArr], ?_⟩
    · simp [Heap.newArr]
    · simp; omega
    · rw [List.take_append_of_le_length (by simp; omega), List.take_of_length_le (by simp; omega)]
    · intro x hx hne
      simp [Heap.newArr, List.getElem?_append_left hx]

/-- From `h` to `h'` only the parent links of the nodes `os` changed, to `a`. -/
structure Repar (h h' : Heap α V) (os : List (Option Nat)) (a : Nat) : Prop where
  len : h'.cells.length = h.cells.length
  alike : ∀ x, Alike false h h' x
  other : ∀ x, some x ∉ os → h'.cells[x]? = h.cells[x]?
  set : ∀ x, some x ∈ os → ∃ c, h'.cells[x]? = some c ∧ c.P = some a

theorem Repar.refl (h h' : Heap α V) (a : Nat) (e : h'.cells = h.cells) : Repar h h' [] a :=
  ⟨by rw [e], fun x => .of_eq (by rw [e]), fun _ _ => by rw [e], fun _ h => by simp at h⟩

theorem Repar.trans {h h' h'' : Heap α V} {os os' a} (h1 : Repar h h' os a) (h2 : Repar h' h'' os' a) : Repar h h'' (os ++ os') a := by
  refine ⟨h2.len.trans h1.len, ?_, ?_, ?_⟩
  · intro y d hd
    obtain ⟨d', f1, f2, f3, _⟩ := h1.alike y d hd
    obtain ⟨d'', f1', f2', f3', _⟩ := h2.alike y d' f1
    exact ⟨d'', f1', f2'.trans f2, f3'.trans f3, by simp⟩
  · intro x hx
    simp only [List.mem_append, not_or] at hx
    rw [h2.other x hx.2, h1.other x hx.1]
  · intro x hx
    by_cases e : some x ∈ os'
    · exact h2.set x e
    · rw [h2.other x e]
      exact h1.set x ((List.mem_append.1 hx).resolve_right e)

theorem Repar.cells {h h' h'' : Heap α V} {os a} (h1 : Repar h h' os a) (e : h''.cells = h'.cells) : Repar h h'' os a := by
  obtain ⟨a1, a2, a3, a4⟩ := h1
  exact ⟨by rw [e, a1], fun x c hc => by rw [e]; exact a2 x c hc, by rw [e]; exact a3, by rw [e]; exact a4⟩

theorem setParents_spec : ∀ (xs : List (Option Nat)) (h : Heap α V) (a : Nat), (∀ o ∈ xs, ∃ x, o = some x ∧ x < h.cells.length) →
    ∃ h', h.setParents xs a = .ok h' ∧ h'.arrs = h.arrs ∧ Repar h h' xs a := by
  intro xs
  induction xs with
  | nil => intro h a _; exact ⟨h, rfl, rfl, .refl h h a rfl⟩
  | cons o xs ih =>
    intro h a hx
    obtain ⟨x, rfl, hlt⟩ := hx o (by simp)
    have hc : h.cells[x]? = some h.cells[x] := List.getElem?_eq_getElem hlt
    obtain ⟨h', e, e1, e2⟩ := ih (h.put x { h.cells[x] with P := some a }) a (by
      intro o ho
      obtain ⟨y, e, hy⟩ := hx o (by simp [ho])
      exact ⟨y, e, by simpa using hy⟩)
    have h1 : Repar h (h.put x { h.cells[x] with P := some a }) [some x] a := by
      refine ⟨by simp, ?_, ?_, ?_⟩
      · intro y c hy
        by_cases hxy : y = x
        · subst hxy
          rw [hc] at hy
          cases hy
          exact ⟨_, put_same _ hlt, rfl, rfl, by simp⟩
        · exact ⟨c, by rw [put_ne _ hxy, hy], rfl, rfl, by simp⟩
      · intro y hy
        simp only [List.mem_singleton, Option.some.injEq] at hy
        exact put_ne _ hy
      · intro y hy
        simp only [List.mem_singleton, Option.some.injEq] at hy
        subst hy
        exact ⟨_, put_same _ hlt, rfl⟩
    refine ⟨h', ?_, e1, h1.trans e2⟩
    simp only [Heap.setParents, deref_some hc, Out.bind_ok]
    exact e

/-- The nodes `os` are the trees, with any parent links of their roots. -/
def Loose (lk : Bool) (h : Heap α V) : List (PN α V) → List (Option Nat) → List Nat → List Nat → Prop
  | [], os, F, A => os = [] ∧ F = [] ∧ A = []
  | t :: ts, os, F, A => ∃ p a os' F1 A1 F2 A2, os = some a :: os' ∧ Rep lk h t p a F1 A1 ∧
      Loose lk h ts os' F2 A2 ∧ F = F1 ++ F2 ∧ A = A1 ++ A2

theorem Reps.loose {lk : Bool} {h : Heap α V} : ∀ {ts p os F A}, Reps lk h ts p os F A → Loose lk h ts os F A
  | [], _, _, _, _, h => h
  | _ :: _, _, _, _, _, ⟨a, os', F1, A1, F2, A2, e, h1, h2, e2, e3⟩ => ⟨_, a, os', F1, A1, F2, A2, e, h1, Reps.loose h2, e2, e3⟩

theorem Loose.append {lk : Bool} {h : Heap α V} : ∀ {ts os F A ts' os' F' A'}, Loose lk h ts os F A →
    Loose lk h ts' os' F' A' → Loose lk h (ts ++ ts') (os ++ os') (F ++ F') (A ++ A')
  | [], os, F, A, ts', os', F', A', hr, h => by
    obtain ⟨rfl, rfl, rfl⟩ := hr
    exact h
  | t :: ts, os, F, A, ts', os', F', A', hr, h => by
    obtain ⟨p, a, os1, F1, A1, F2, A2, rfl, h1, h2, rfl, rfl⟩ := hr
    exact ⟨p, a, os1 ++ os', F1, A1, F2 ++ F', A2 ++ A', rfl, h1, h2.append h, by simp, by simp⟩

theorem Loose.addrs {lk : Bool} {h : Heap α V} : ∀ {ts os F A}, Loose lk h ts os F A → ∀ o ∈ os, ∃ x ∈ F, o = some x
  | [], _, _, _, ⟨e, _⟩ => by simp [e]
  | _ :: _, _, _, _, ⟨p, a, os', F1, A1, F2, A2, e, h1, h2, e2, e3⟩ => by
    intro o ho
    rw [e] at ho
    rcases List.mem_cons.1 ho with rfl | ho
    · exact ⟨a, by rw [e2]; simp [h1.root_mem], rfl⟩
    · obtain ⟨x, hx, e⟩ := Loose.addrs h2 o ho
      exact ⟨x, by rw [e2]; simp [hx], e⟩

theorem Loose.bound {lk : Bool} {h : Heap α V} : ∀ {ts os F A}, Loose lk h ts os F A →
    (∀ x ∈ F, x < h.cells.length) ∧ (∀ x ∈ A, x < h.arrs.length)
  | [], _, _, _, ⟨_, e, e'⟩ => by simp [e, e']
  | _ :: _, _, _, _, ⟨p, a, os', F1, A1, F2, A2, e, h1, h2, e2, e3⟩ => by
    have b1 := h1.bound
    have b2 := Loose.bound h2
    subst e2 e3
    constructor
    · intro x hx
      exact (List.mem_append.1 hx).elim (b1.1 x) (b2.1 x)
    · intro x hx
      exact (List.mem_append.1 hx).elim (b1.2 x) (b2.2 x)

theorem Loose.frame {lk : Bool} {h h' : Heap α V} : ∀ {ts os F A}, Loose lk h ts os F A →
    (∀ x ∈ F, Alike lk h h' x) → (∀ x ∈ A, h'.arrs[x]? = h.arrs[x]?) → Loose lk h' ts os F A
  | [], os, F, A, h, _, _ => h
  | t :: ts, os, F, A, hr, hF, hA => by
    obtain ⟨p, a, os', F1, A1, F2, A2, e, h1, h2, rfl, rfl⟩ := hr
    exact ⟨p, a, os', F1, A1, F2, A2, e, Rep.frame h1 (fun x hx => hF x (by simp [hx])) (fun x hx => hA x (by simp [hx])),
      Loose.frame h2 (fun x hx => hF x (by simp [hx])) (fun x hx => hA x (by simp [hx])), rfl, rfl⟩

/-- Setting the parent links of the roots. -/
theorem Loose.repar {lk : Bool} {h h' : Heap α V} {a : Nat} {xs : List (Option Nat)} : ∀ {ts os F A}, Loose lk h ts os F A → F.Nodup →
    Repar h h' xs a → (∀ o ∈ os, o ∈ xs) → (∀ x ∈ F, some x ∈ xs → some x ∈ os) → (∀ x ∈ A, h'.arrs[x]? = h.arrs[x]?) → Reps lk h' ts a os F A
  | [], os, F, A, h, _, _, _, _, _ => h
  | .node l ks :: ts, os, F, A, hr, hn, hp, hin, hx, hA => by
    obtain ⟨p, x, os', F1, A1, F2, A2, rfl, h1, h2, rfl, rfl⟩ := hr
    obtain ⟨n1, n2, n3⟩ := List.nodup_append.1 hn
    have hos := Loose.addrs h2
    refine ⟨x, os', F1, A1, F2, A2, rfl, ?_, Loose.repar h2 n2 hp (fun o ho => hin o (by simp [ho])) ?_ (fun x hx => hA x (by simp [hx])), rfl, rfl⟩
    · obtain ⟨c, ar, F', A', k1, k2, k3, k4, k5, k6, rfl, rfl⟩ := h1
      obtain ⟨c', g1, g2, g3, -⟩ := hp.alike x c k1
      obtain ⟨c'', s1, s2⟩ := hp.set x (hin _ (by simp))
      rw [g1] at s1
      cases s1
      refine ⟨c', ar, F', A', g1, g2.trans k2, fun _ => s2, by rw [g3, hA _ (by simp), k4], by rw [g3]; exact k5, ?_, rfl, by rw [g3]⟩
      rw [g3]
      refine k6.frame (fun y hy => .of_eq (hp.other y fun hm => ?_)) (fun y hy => hA y (by simp [hy]))
      rcases List.mem_cons.1 (hx y (by simp [hy]) hm) with e | e
      · cases e
        exact (List.nodup_cons.1 n1).1 hy
      · obtain ⟨z, hz, e⟩ := hos _ e
        cases e
        exact n3 y (by simp [hy]) y hz rfl
    · intro y hy hm
      rcases List.mem_cons.1 (hx y (by simp [hy]) hm) with e | e
      · cases e
        exact absurd rfl (n3 x h1.root_mem x hy)
      · exact e

/-! ### Frames -/

theorem Frame.refl (h : Heap α V) (F A) : Frame h h F A := ⟨Nat.le_refl _, Nat.le_refl _, fun _ _ _ => rfl, fun _ _ _ => rfl⟩

theorem Frame.trans {h h' h'' : Heap α V} {F A F' A'} (h1 : Frame h h' F A) (h2 : Frame h' h'' F' A')
    (hF : Within h.cells.length F F') (hA : Within h.arrs.length A A') : Frame h h'' F A := by
  obtain ⟨a1, a2, a3, a4⟩ := h1
  obtain ⟨b1, b2, b3, b4⟩ := h2
  refine ⟨by omega, by omega, ?_, ?_⟩
  · intro x hx hn
    rw [b3 x (by omega), a3 x hx hn]
    intro hm
    rcases hF x hm with h | h
    · exact hn h
    · omega
  · intro x hx hn
    rw [b4 x (by omega), a4 x hx hn]
    intro hm
    rcases hA x hm with h | h
    · exact hn h
    · omega

theorem Within.refl (n F) : Within n F F := fun _ h => .inl h

theorem Within.trans {n n' : Nat} {F F' F''} (h1 : Within n F F') (h2 : Within n' F' F'') (hn : n ≤ n') : Within n F F'' := by
  intro x hx
  rcases h2 x hx with h | h
  · exact h1 x h
  · exact .inr (by omega)

theorem Within.of_subset {n : Nat} {F F' : List Nat} (h : ∀ x ∈ F', x ∈ F) : Within n F F' := fun x hx => .inl (h x hx)

theorem SimL.ok {β : Type} {lk p} {h : Heap α V} {a F A} {t : PN α V} (b : β) (ho : Own lk h p a t F A) :
    SimL lk p h a F A (.ok (t, b)) (.ok (h, b)) :=
  ⟨h, F, A, rfl, ho, Frame.refl _ _ _, Within.refl _ _, Within.refl _ _⟩

theorem SimL.bind {β γ : Type} {lk p} {h : Heap α V} {a F A} {o : Out (PN α V × β)} {m : Out (Heap α V × β)}
    {k : PN α V × β → Out (PN α V × γ)} {kH : Heap α V × β → Out (Heap α V × γ)} (hs : SimL lk p h a F A o m)
    (hk : ∀ t' b h' F' A', Own lk h' p a t' F' A' → SimL lk p h' a F' A' (k (t', b)) (kH (h', b))) :
    SimL lk p h a F A (o.bind k) (m.bind kH) := by
  match o, hs with
  | .panic, hs => rw [show m = .panic from hs]; rfl
  | .fuel, hs => rw [show m = .fuel from hs]; rfl
  | .ok (t', b), ⟨h', F', A', e, ho, hf, w1, w2⟩ =>
    rw [e]
    simp only [Out.bind_ok]
    have := hk t' b h' F' A' ho
    match hk' : k (t', b), this with
    | .panic, this => exact this
    | .fuel, this => exact this
    | .ok (t'', c), ⟨h'', F'', A'', e', ho', hf', w1', w2'⟩ =>
      exact ⟨h'', F'', A'', e', ho', Frame.trans hf hf' w1 w2, Within.trans w1 w1' hf.1, Within.trans w2 w2' hf.2.1⟩

theorem SimL.map {β γ : Type} {lk p} {h : Heap α V} {a F A} {o : Out (PN α V × β)} {m : Out (Heap α V × β)} (f : β → γ) (hs : SimL lk p h a F A o m) :
    SimL lk p h a F A (o.bind fun r => .ok (r.1, f r.2)) (m.bind fun r => .ok (r.1, f r.2)) :=
  SimL.bind hs fun _ b _ _ _ ho => SimL.ok (f b) ho

end Verif.Spec.TreeHeap
