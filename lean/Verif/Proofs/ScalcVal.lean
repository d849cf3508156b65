import Verif.Model.Scalc
import Verif.Proofs.Tree
/- Reduced trees of the stack calculator: what they look like, and that they can be evaluated. -/
namespace Verif.Scalc
open Verif Verif.Spec Verif.Spec.Scalc Verif.Tree

variable {N : Type}

/-- Trees that can be evaluated. -/
inductive Val : PN Str Str → Prop
  | num {l ks} : l.kind = "Number".toList → Val (.node l ks)
  | uop {l a ks} : l.kind = "uop".toList → Val a → Val (.node l (a :: ks))
  | bop {l a b ks} : l.kind = "bop".toList → Val a → Val b → Val (.node l (a :: b :: ks))
  | sop {l a ks} : l.kind = "sop".toList → Val a → Val (.node l (a :: ks))
  | many {l ks} : l.kind = "Stack".toList ∨ l.kind = "smp".toList → (∀ k ∈ ks, Val k) → Val (.node l ks)
  | cond {l pre x y c} : l.kind = "?".toList → Val c → Val (.node x.lx (pre ++ x.kids)) → Val (.node y.lx (pre ++ y.kids)) →
      Val (.node l (pre ++ [x, y, c]))

/-- They still can with more children in front. -/
theorem Val.ext {t : PN Str Str} (h : Val t) {pre : List (PN Str Str)} (hp : ∀ k ∈ pre, Val k) : Val (.node t.lx (pre ++ t.kids)) := by
  induction h with
  | num h => exact .num h
  | @uop l a ks h ha _ =>
    cases pre with
    | nil => exact .uop h ha
    | cons p ps => exact .uop h (hp p (by simp))
  | @bop l a b ks h ha hb _ _ =>
    match pre, hp with
    | [], _ => exact .bop h ha hb
    | [p], hp => exact .bop h (hp p (by simp)) ha
    | p :: q :: ps, hp => exact .bop h (hp p (by simp)) (hp q (by simp))
  | @sop l a ks h ha _ =>
    cases pre with
    | nil => exact .sop h ha
    | cons p ps => exact .sop h (hp p (by simp))
  | @many l ks h hk _ =>
    refine .many h fun k hm => ?_
    rcases List.mem_append.1 hm with hm | hm
    · exact hp k hm
    · exact hk k hm
  | @cond l pre' x y c h hc _ _ _ hx hy =>
    have := Val.cond (l := l) (pre := pre ++ pre') (x := x) (y := y) (c := c) h hc (by simpa [PN.kids, PN.lx] using hx)
      (by simpa [PN.kids, PN.lx] using hy)
    simpa [PN.kids, PN.lx] using this

/-- Operators, or choices among them. -/
inductive Op (k : Str) : PN Str Str → Prop
  | leaf {l} : l.kind = k → Op k (.node l [])
  | cond {l x y c} : l.kind = "?".toList → Op k x → Op k y → Val c → Op k (.node l [x, y, c])

theorem Op.val {k : Str} {t : PN Str Str} (h : Op k t) {pre : List (PN Str Str)} (hk : ∀ l : Lexeme Str Str, l.kind = k → Val (.node l pre)) :
    Val (.node t.lx (pre ++ t.kids)) := by
  induction h with
  | leaf h => simpa [PN.kids, PN.lx] using hk _ h
  | cond h _ _ hc hx hy => exact .cond h hc hx hy

/-! ### Evaluation -/

theorem returns_succ {β : Type} {f g : Nat → Out β} {r : β} (h : ∀ n, f (n + 1) = g n) (hg : Out.Returns g r) : Out.Returns f r := by
  obtain ⟨M, hM⟩ := hg
  refine ⟨M + 1, fun n hn => ?_⟩
  obtain ⟨m, rfl⟩ : ∃ m, n = m + 1 := ⟨n - 1, by omega⟩
  rw [h, hM m (by omega)]

theorem returns_const {β : Type} (r : β) : Out.Returns (fun _ => Out.ok r) r := ⟨0, fun _ _ => rfl⟩

theorem returns_bind {β γ : Type} {f : Nat → Out β} {g : β → Nat → Out γ} {r : β} {s : γ} (h : Out.Returns f r) (h' : Out.Returns (g r) s) :
    Out.Returns (fun n => (f n).bind fun x => g x n) s := by
  obtain ⟨M, hM⟩ := h
  obtain ⟨K, hK⟩ := h'
  refine ⟨max M K, fun n hn => ?_⟩
  simp only
  rw [hM n (by omega), Out.bind_ok, hK n (by omega)]

theorem evalAll_returns {f : Nat → PN Str Str → Out (PF N)} : ∀ {ks : List (PN Str Str)},
    (∀ k ∈ ks, ∃ v, Out.Returns (fun n => f n k) v) → ∃ vs, Out.Returns (fun n => evalAll (f n) ks) vs
  | [], _ => ⟨[], returns_const _⟩
  | k :: ks, h => by
    obtain ⟨v, hv⟩ := h k (by simp)
    obtain ⟨vs, hvs⟩ := evalAll_returns (f := f) (ks := ks) fun k hk => h k (by simp [hk])
    exact ⟨v :: vs, returns_bind (g := fun v n => (evalAll (f n) ks).bind fun vs => .ok (v :: vs)) hv
      (returns_bind (g := fun vs _ => .ok (v :: vs)) hvs (returns_const _))⟩

theorem evalSmp_mem {op k : PN Str Str} (h : k ∈ (evalSmp op).kids) : k ∈ op.kids := by
  unfold evalSmp at h
  simp only at h
  split at h
  · split at h
    · next a b ha hb =>
      split at h
      · rcases List.mem_or_eq_of_mem_set h with h | rfl
        · rcases List.mem_or_eq_of_mem_set h with h | rfl
          · exact h
          · exact List.mem_of_getElem? hb
        · exact List.mem_of_getElem? ha
      · exact h
    · exact h
  · split at h
    · split at h
      · exact List.mem_of_mem_take h
      · exact h
    · split at h
      · cases h
      · exact h

theorem index_zero {β : Type} (a : β) (l : List β) : Tree.index (a :: l) 0 = .ok a := rfl
theorem index_one {β : Type} (a b : β) (l : List β) : Tree.index (a :: b :: l) 1 = .ok b := rfl

theorem sel_last {β : Type} (a : List β) (c : β) : Sel (a ++ [c]).length (-1) a.length := ⟨by simp, .inr (by simp; omega)⟩

theorem sel_last2 {β : Type} (a : List β) (b c : β) : Sel (a ++ b :: [c]).length (-2) a.length := ⟨by simp, .inr (by simp; omega)⟩

/-- **Evaluating.** -/
theorem Val.evals (A : Arith N) {t : PN Str Str} (h : Val t) :
    (∃ v, Out.Returns (fun n => evalE A n t) v) ∧ (∃ vs, Out.Returns (fun n => evalStack A n t) vs) := by
  have other : ∀ {t : PN Str Str}, t.kind ≠ "?".toList → t.kind ≠ "smp".toList → t.kind ≠ "Stack".toList →
      (∃ v, Out.Returns (fun n => evalE A n t) v) → ∃ vs, Out.Returns (fun n => evalStack A n t) vs := by
    rintro t h1 h2 h3 ⟨v, hv⟩
    refine ⟨[v], returns_succ (g := fun n => (evalE A n t).bind fun v => .ok [v]) (fun n => ?_)
      (returns_bind (g := fun v _ => .ok [v]) hv (returns_const _))⟩
    rw [evalStack, if_neg h1, if_neg h2, if_neg h3]
  induction h with
  | @num l ks h =>
    have h0 : (PN.node l ks).kind = "Number".toList := h
    have : ∃ v, Out.Returns (fun n => evalE A n (.node l ks)) v := by
      have : ∃ v, ∀ n, evalE A (n + 1) (.node l ks) = .ok v := by
        match ks, h0 with
        | [], h0 => exact ⟨_, fun n => by rw [evalE, if_pos h0]; rfl⟩
        | [_], h0 => exact ⟨_, fun n => by rw [evalE, if_pos h0]; rfl⟩
        | [_, _], h0 => exact ⟨_, fun n => by rw [evalE, if_pos h0]; rfl⟩
        | _ :: _ :: _ :: _, h0 => exact ⟨_, fun n => by rw [evalE, if_pos h0]; rfl⟩
      obtain ⟨v, hv⟩ := this
      exact ⟨v, returns_succ hv (returns_const _)⟩
    exact ⟨this, other (by rw [h0]; decide) (by rw [h0]; decide) (by rw [h0]; decide) this⟩
  | @uop l a ks h ha ih =>
    have h0 : (PN.node l (a :: ks)).kind = "uop".toList := h
    obtain ⟨⟨v, hv⟩, -⟩ := ih
    have : ∃ v, Out.Returns (fun n => evalE A n (.node l (a :: ks))) v := by
      refine ⟨_, returns_succ (g := fun n => (evalE A n a).bind fun ae => .ok (evalUop A ae l.val)) (fun n => ?_)
        (returns_bind (g := fun ae _ => .ok (evalUop A ae l.val)) hv (returns_const _))⟩
      rw [evalE, if_neg (by rw [h0]; decide), if_pos h0]
      rfl
    exact ⟨this, other (by rw [h0]; decide) (by rw [h0]; decide) (by rw [h0]; decide) this⟩
  | @bop l a b ks h ha hb iha ihb =>
    have h0 : (PN.node l (a :: b :: ks)).kind = "bop".toList := h
    obtain ⟨⟨v, hv⟩, -⟩ := iha
    obtain ⟨⟨w, hw⟩, -⟩ := ihb
    have : ∃ v, Out.Returns (fun n => evalE A n (.node l (a :: b :: ks))) v := by
      refine ⟨_, returns_succ (g := fun n => (evalE A n a).bind fun ae => (evalE A n b).bind fun be => .ok (evalBop A ae be l.val)) (fun n => ?_)
        (returns_bind (g := fun ae n => (evalE A n b).bind fun be => .ok (evalBop A ae be l.val)) hv
          (returns_bind (g := fun be _ => .ok (evalBop A v be l.val)) hw (returns_const _)))⟩
      rw [evalE, if_neg (by rw [h0]; decide), if_neg (by rw [h0]; decide), if_pos h0]
      rfl
    exact ⟨this, other (by rw [h0]; decide) (by rw [h0]; decide) (by rw [h0]; decide) this⟩
  | @sop l a ks h ha ih =>
    have h0 : (PN.node l (a :: ks)).kind = "sop".toList := h
    obtain ⟨-, v, hv⟩ := ih
    have : ∃ v, Out.Returns (fun n => evalE A n (.node l (a :: ks))) v := by
      refine ⟨_, returns_succ (g := fun n => (evalStack A n a).bind fun s => .ok (evalSop A s l.val)) (fun n => ?_)
        (returns_bind (g := fun s _ => .ok (evalSop A s l.val)) hv (returns_const _))⟩
      rw [evalE, if_neg (by rw [h0]; decide), if_neg (by rw [h0]; decide), if_neg (by rw [h0]; decide), if_pos h0]
      rfl
    exact ⟨this, other (by rw [h0]; decide) (by rw [h0]; decide) (by rw [h0]; decide) this⟩
  | @many l ks h hk ih =>
    have hE : ∀ n, evalE A (n + 1) (.node l ks) = .ok ⟨A.zero, 0⟩ := by
      intro n
      have : (PN.node l ks).kind = l.kind := rfl
      rw [evalE, this]
      rcases h with h | h <;>
        rw [if_neg (by rw [h]; decide), if_neg (by rw [h]; decide), if_neg (by rw [h]; decide), if_neg (by rw [h]; decide)]
    refine ⟨⟨_, returns_succ hE (returns_const _)⟩, ?_⟩
    rcases h with h | h
    · have h0 : (PN.node l ks).kind = "Stack".toList := h
      obtain ⟨vs, hvs⟩ := evalAll_returns (f := evalE A) (ks := ks) fun k hm => (ih k hm).1
      refine ⟨vs, returns_succ (fun n => ?_) hvs⟩
      rw [evalStack, if_neg (by rw [h0]; decide), if_neg (by rw [h0]; decide), if_pos h0]
      rfl
    · have h0 : (PN.node l ks).kind = "smp".toList := h
      obtain ⟨vs, hvs⟩ := evalAll_returns (f := evalE A) (ks := (evalSmp (.node l ks)).kids) fun k hm => (ih k (evalSmp_mem hm)).1
      refine ⟨vs, returns_succ (fun n => ?_) hvs⟩
      rw [evalStack, if_neg (by rw [h0]; decide), if_pos h0]
  | @cond l pre x y c h hc hx hy ihc ihx ihy =>
    have h0 : (PN.node l (pre ++ [x, y, c])).kind = "?".toList := h
    have hE : ∀ n, evalE A (n + 1) (.node l (pre ++ [x, y, c])) = .ok ⟨A.zero, 0⟩ := by
      intro n
      rw [evalE, h0, if_neg (by decide), if_neg (by decide), if_neg (by decide), if_neg (by decide)]
    refine ⟨⟨_, returns_succ hE (returns_const _)⟩, ?_⟩
    obtain ⟨⟨v, hv⟩, -⟩ := ihc
    obtain ⟨-, vx, hvx⟩ := ihx
    obtain ⟨-, vy, hvy⟩ := ihy
    have e1 : Tree.child (.node l (pre ++ [x, y, c])) (-1) = .ok (some c) := by
      have := child_sel (l := l) (sel_last (pre ++ [x, y]) c)
      simpa using this
    have e2 : Tree.removeChild (.node l (pre ++ [x, y, c])) (-1) = .ok (.node l (pre ++ [x, y]), true) := by
      have := removeChild_sel (l := l) (sel_last (pre ++ [x, y]) c)
      simpa using this
    have e3 : Tree.removeChild (.node l (pre ++ [x, y])) (-2) = .ok (.node l (pre ++ [y]), true) := by
      have := removeChild_sel (l := l) (sel_last2 pre x y)
      simpa using this
    have e4 : Tree.removeChild (.node l (pre ++ [x, y])) (-1) = .ok (.node l (pre ++ [x]), true) := by
      have := removeChild_sel (l := l) (sel_last (pre ++ [x]) y)
      simpa using this
    have e5 : ∀ z : PN Str Str, Tree.promoteChild (.node l (pre ++ [z])) (-1) = .ok (.node z.lx (pre ++ z.kids), true) := by
      intro z
      have := promoteChild_sel (l := l) (sel_last pre z)
      simpa using this
    refine ⟨if A.lt A.zero v.V then vy else vx, returns_succ (g := fun n => (evalE A n c).bind fun v =>
      evalStack A n (if A.lt A.zero v.V then .node y.lx (pre ++ y.kids) else .node x.lx (pre ++ x.kids))) (fun n => ?_)
      (returns_bind hv (g := fun v n => evalStack A n (if A.lt A.zero v.V then .node y.lx (pre ++ y.kids) else .node x.lx (pre ++ x.kids))) ?_)⟩
    · rw [evalStack, if_pos h0, e1, Out.bind_ok]
      simp only
      congr 1
      funext v
      rw [e2, Out.bind_ok]
      by_cases hb : A.lt A.zero v.V
      · simp only [hb, if_true]
        rw [e3, Out.bind_ok]
        simp only
        rw [e5, Out.bind_ok]
      · simp only [hb]
        rw [if_neg (by simp), e4, Out.bind_ok]
        simp only
        rw [e5, Out.bind_ok]
        simp
    · by_cases hb : A.lt A.zero v.V
      · simpa [hb] using hvy
      · simpa [hb] using hvx

end Verif.Scalc
