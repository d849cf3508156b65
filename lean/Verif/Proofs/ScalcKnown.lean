import Verif.Proofs.ScalcSeg
/- The names of operators on the stack and of manipulations, as they are written in texts. -/
namespace Verif.Scalc
open Verif Verif.Spec Verif.Spec.Scalc Verif.Tree

variable {N : Type}

theorem maxPrecision_eq (s : List (PF N)) : maxPrecision s = s.foldl (fun m p => max m p.P) 0 := by
  unfold maxPrecision
  congr 1
  funext m p
  split <;> omega

theorem least_eq (A : Arith N) : ∀ (a : PF N) s, least A a s = s.foldl (fun v p => if A.lt p.V v.V then p else v) a
  | _, [] => rfl
  | a, b :: s => by rw [least, least_eq A _ s]; rfl

theorem fold_ok (A : Arith N) : ∀ w, (Spec.Scalc.Kind.sop, w) ∈ words → ∃ f, named (folds A) (nameOf w) = some f ∧ ∀ s, evalSop A s (nameOf w) = f s := by
  intro w hw
  simp only [words, List.mem_cons, Prod.mk.injEq, List.not_mem_nil, or_false, reduceCtorEq, false_and, true_and, false_or] at hw
  rcases hw with rfl | rfl | rfl | rfl | rfl | rfl | rfl
  · exact ⟨_, rfl, fun s => rfl⟩
  · refine ⟨_, rfl, fun s => ?_⟩
    show (⟨_, maxPrecision s⟩ : PF N) = _
    rw [maxPrecision_eq]
    rfl
  · refine ⟨_, rfl, fun s => ?_⟩
    show (⟨if _ ∧ s.length > 0 then _ else _, maxPrecision s⟩ : PF N) = ⟨if s = [] then _ else _, _⟩
    rw [maxPrecision_eq]
    cases s with
    | nil => rfl
    | cons a s => rfl
  · refine ⟨_, rfl, fun s => ?_⟩
    cases s with
    | nil => rfl
    | cons a s => exact (least_eq A a s).symm
  · refine ⟨_, rfl, fun s => ?_⟩
    cases s with
    | nil => rfl
    | cons a s => exact (least_eq { A with lt := fun a b => A.lt b a } a s).symm
  · exact ⟨_, rfl, fun s => rfl⟩
  · exact ⟨_, rfl, fun s => rfl⟩

theorem forall2_append {α β : Type} {R : α → β → Prop} {a c : List α} {b d : List β} (h : List.Forall₂ R a b) (h' : List.Forall₂ R c d) :
    List.Forall₂ R (a ++ c) (b ++ d) := by
  induction h with
  | nil => exact h'
  | cons h _ ih => exact .cons h ih

theorem forall2_last {α β : Type} {R : α → β → Prop} {a : List α} {x : α} {vs : List β} (h : List.Forall₂ R (a ++ [x]) vs) :
    ∃ b y, vs = b ++ [y] ∧ List.Forall₂ R a b ∧ R x y := by
  induction a generalizing vs with
  | nil =>
    cases h with
    | cons h h' => cases h'; exact ⟨[], _, rfl, .nil, h⟩
  | cons z a ih =>
    cases h with
    | cons h h' =>
      obtain ⟨b, y, rfl, h1, h2⟩ := ih h'
      exact ⟨_ :: b, y, rfl, .cons h h1, h2⟩

theorem manip_ok (A : Arith N) : ∀ w, (Spec.Scalc.Kind.smp, w) ∈ words → ∃ f : List (PF N) → List (PF N), named manips (nameOf w) = some f ∧
    ∀ (l : Lexeme Str Str) ks vs, l.val = nameOf w → List.Forall₂ (EV A) ks vs →
      List.Forall₂ (EV A) (evalSmp (.node l ks)).kids (f vs.reverse).reverse := by
  intro w hw
  simp only [words, List.mem_cons, Prod.mk.injEq, List.not_mem_nil, or_false, reduceCtorEq, false_and, true_and, false_or] at hw
  rcases hw with rfl | rfl | rfl
  · refine ⟨_, rfl, fun l ks vs hl h => ?_⟩
    have hv : (PN.node l ks).lx.val = "swap".toList := hl
    unfold evalSmp
    simp only [hv, if_pos]
    show List.Forall₂ (EV A) (PN.kids (match ks[ks.length - 1]?, ks[ks.length - 2]? with
      | some a, some b => if ks.length > 1 then PN.node l ((ks.set (ks.length - 1) b).set (ks.length - 2) a) else PN.node l ks
      | _, _ => PN.node l ks)) _
    rcases list_cases ks with rfl | ⟨a, y, rfl⟩
    · cases h; exact .nil
    rcases list_cases a with rfl | ⟨a, x, rfl⟩
    · cases h with
      | cons h h' => cases h'; exact .cons h .nil
    obtain ⟨b, v, rfl, h1, hy⟩ := forall2_last h
    obtain ⟨b, u, rfl, h1, hx⟩ := forall2_last h1
    have e1 : (a ++ [x] ++ [y])[(a ++ [x] ++ [y]).length - 1]? = some y := by simp
    have e2 : (a ++ [x] ++ [y])[(a ++ [x] ++ [y]).length - 2]? = some x := by simp
    have e3 : ((a ++ [x] ++ [y]).set ((a ++ [x] ++ [y]).length - 1) x).set ((a ++ [x] ++ [y]).length - 2) y = a ++ [y] ++ [x] := by simp
    rw [e1, e2]
    simp only
    rw [if_pos (by simp), e3]
    rw [show (b ++ [u] ++ [v]).reverse = v :: u :: b.reverse by simp]
    simp only
    rw [show (u :: v :: b.reverse).reverse = b ++ [v] ++ [u] by simp]
    exact forall2_append (forall2_append h1 (.cons hy .nil)) (.cons hx .nil)
  · refine ⟨_, rfl, fun l ks vs hl h => ?_⟩
    have hv : (PN.node l ks).lx.val = "drop".toList := hl
    unfold evalSmp
    simp only [hv]
    rw [if_neg (by decide), if_pos trivial]
    rcases list_cases ks with rfl | ⟨a, y, rfl⟩
    · cases h; exact .nil
    obtain ⟨b, v, rfl, h1, hy⟩ := forall2_last h
    rw [if_pos (by simp [PN.kids])]
    simpa [PN.kids] using h1
  · refine ⟨_, rfl, fun l ks vs hl h => ?_⟩
    have hv : (PN.node l ks).lx.val = "clear".toList := hl
    unfold evalSmp
    simp only [hv]
    rw [if_neg (by decide), if_neg (by decide), if_pos trivial]
    exact .nil

theorem text_known (A : Arith N) {b : SimpleLexer.Bytes} {ts : List Tok} (h : SText b ts) : ∀ x ∈ ts, Known A x := by
  intro x hx
  refine ⟨text_fine A h x hx, ?_, ?_⟩
  all_goals
    revert x
    induction h with
    | done => simp
    | space _ _ ih => exact ih
    | int _ _ _ _ _ ih | dec _ _ _ _ ih =>
      intro x hx hk
      rcases List.mem_cons.1 hx with rfl | hx
      · cases hk
      · exact ih x hx hk
    | word hw _ _ _ ih =>
      intro x hx hk
      rcases List.mem_cons.1 hx with rfl | hx
      · have hk := hk.symm
        first
          | (have hk : Spec.Scalc.Kind.sop = _ := hk; subst hk; exact fold_ok A _ hw)
          | (have hk : Spec.Scalc.Kind.smp = _ := hk; subst hk; exact manip_ok A _ hw)
      · exact ih x hx hk

end Verif.Scalc
