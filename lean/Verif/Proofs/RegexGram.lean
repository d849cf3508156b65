import Verif.Model.RegexGram
import Verif.Spec.RegexGram
import Verif.Proofs.Grammar
import Mathlib.Data.List.Forall2
/-
What `evalGrammar` of grammar/regexgram computes on a tree showing the rules `R`: the expansion of every
rule, and a pair of productions for every repetition.
-/
namespace Verif.RegexGram
open Verif Verif.Spec Verif.Grammar

mutual
/-- The alternatives of an expression. -/
def expand : Rx → List (List Str)
  | .sym s => [[s]]
  | .opt x => expand x ++ [[]]
  | .or xs => (expands xs).flatten
  | .group xs => reduce (expands xs)
  | .rep x => [[(Rx.rep x).text]]
/-- The alternatives of each expression. -/
def expands : List Rx → List (List (List Str))
  | [] => []
  | x :: xs => expand x :: expands xs
end

mutual
/-- The expressions repeated in an expression, outside of other repetitions. -/
def topReps : Rx → List Rx
  | .sym _ => []
  | .opt x => topReps x
  | .or xs => topRepss xs
  | .group xs => topRepss xs
  | .rep x => [x]
/-- The same for a list of expressions. -/
def topRepss : List Rx → List Rx
  | [] => []
  | x :: xs => topReps x ++ topRepss xs
end

mutual
/-- Number of repetitions. -/
def reps : Rx → Nat
  | .sym _ => 0
  | .opt x => reps x
  | .or xs => repss xs
  | .group xs => repss xs
  | .rep x => reps x + 1
/-- Number of repetitions. -/
def repss : List Rx → Nat
  | [] => 0
  | x :: xs => reps x + repss xs
end

/-- The name of the helper for repetitions of `x`. -/
abbrev nm (x : Rx) : Str := (Rx.rep x).text

theorem join_sepBy (sep : Str) : ∀ ss : List Str, Grammar.join sep ss = Rx.sepBy sep ss
  | [] => rfl
  | [_] => rfl
  | s :: t :: ss => by
    have := join_sepBy sep (t :: ss)
    simp only [Grammar.join, Rx.sepBy, this]

mutual
theorem getName_shown : ∀ (x : Rx) (t : PN Str Str), x.Shown t → getName t = .ok x.text
  | .sym s, .node l ks, h => by
    obtain ⟨h1, h2⟩ := h
    simp only [PN.kind, PN.lx] at h1 h2
    rw [getName.eq_def]; simp [h1, h2, Rx.text]
  | .opt x, .node l ks, h => by
    obtain ⟨h1, c, h2, h3⟩ := h
    simp only [PN.kind, PN.lx, PN.kids] at h1 h2
    subst h2
    have := getName_shown x c h3
    rw [getName.eq_def]; simp [h1, this, Rx.text]
  | .or xs, .node l ks, h => by
    obtain ⟨h1, h2⟩ := h
    simp only [PN.kind, PN.lx, PN.kids] at h1 h2
    have := getNames_shown xs ks h2
    rw [getName.eq_def]; simp [h1, this, Rx.text, join, join_sepBy]
  | .group xs, .node l ks, h => by
    obtain ⟨h1, h2⟩ := h
    simp only [PN.kind, PN.lx, PN.kids] at h1 h2
    have := getNames_shown xs ks h2
    rw [getName.eq_def]; simp [h1, this, Rx.text, join, join_sepBy]
  | .rep x, .node l ks, h => by
    obtain ⟨h1, c, h2, h3⟩ := h
    simp only [PN.kind, PN.lx, PN.kids] at h1 h2
    subst h2
    have := getName_shown x c h3
    rw [getName.eq_def]; simp [h1, this, Rx.text]
theorem getNames_shown : ∀ (xs : List Rx) (ts : List (PN Str Str)), Rx.Showns xs ts → getNames ts = .ok (Rx.texts xs)
  | [], ts, h => by
    rw [Rx.Showns] at h; subst h; rfl
  | x :: xs, ts, h => by
    obtain ⟨c, cs, rfl, h1, h2⟩ := h
    simp [getNames, getName_shown x c h1, getNames_shown xs cs h2, Rx.texts]
end

mutual
theorem shown_clone : ∀ (x : Rx) (t : PN Str Str), x.Shown t → x.Shown (Tree.clone t)
  | .sym s, .node l ks, h => by
    obtain ⟨h1, h2⟩ := h
    exact ⟨by simpa [Tree.clone, PN.kind, PN.lx] using h1, by simpa [Tree.clone, PN.lx] using h2⟩
  | .opt x, .node l ks, h => by
    obtain ⟨h1, c, h2, h3⟩ := h
    simp only [PN.kids] at h2
    subst h2
    exact ⟨by simpa [Tree.clone, PN.kind, PN.lx] using h1, Tree.clone c, rfl, shown_clone x c h3⟩
  | .or xs, .node l ks, h => by
    obtain ⟨h1, h2⟩ := h
    exact ⟨by simpa [Tree.clone, PN.kind, PN.lx] using h1, showns_clone xs ks h2⟩
  | .group xs, .node l ks, h => by
    obtain ⟨h1, h2⟩ := h
    exact ⟨by simpa [Tree.clone, PN.kind, PN.lx] using h1, showns_clone xs ks h2⟩
  | .rep x, .node l ks, h => by
    obtain ⟨h1, c, h2, h3⟩ := h
    simp only [PN.kids] at h2
    subst h2
    exact ⟨by simpa [Tree.clone, PN.kind, PN.lx] using h1, Tree.clone c, rfl, shown_clone x c h3⟩
theorem showns_clone : ∀ (xs : List Rx) (ts : List (PN Str Str)), Rx.Showns xs ts → Rx.Showns xs (Tree.clones ts)
  | [], ts, h => by
    rw [Rx.Showns] at h; subst h; rw [Rx.Showns]; rfl
  | x :: xs, ts, h => by
    obtain ⟨c, cs, rfl, h1, h2⟩ := h
    exact ⟨Tree.clone c, Tree.clones cs, rfl, shown_clone x c h1, showns_clone xs cs h2⟩
end

/-- An abstract view of the state of the evaluation: the rules added to the grammar, the productions
still to do, the helpers that are done, and the helpers used by each nonterminal. -/
structure A where
  adds : List (Str × List Str)
  stack : List (Str × List Rx)
  done : List Str
  bl : List (Str × Str)

/-- The helpers recorded for a nonterminal. -/
def blOf (bl : List (Str × Str)) (n : Str) : Option (List Str) :=
  let l := bl.filterMap fun x => if x.1 = n then some x.2 else none
  if l = [] then none else some l

/-- The abstract view is right. -/
structure Rel (op : Op) (a : A) : Prop where
  grammar : Grammar.Rep op.grammar a.adds
  stack : List.Forall₂ (fun (q : Str × List Rx) t => t.lx.val = q.1 ∧ Rx.Showns q.2 t.kids) a.stack op.stack
  done : ∀ n, op.done n = if n ∈ a.done then some [[n]] else none
  bl : ∀ n, op.bludgeons n = blOf a.bl n

/-- Meeting a repetition of `x` in a production of `nt`. -/
def A.reg (nt : Str) (a : A) (x : Rx) : A :=
  let a := { a with bl := a.bl ++ [(nt, nm x)] }
  if nm x ∈ a.done then a
  else { a with
    stack := a.stack ++ [(nm x, [x, .sym (nm x)]), (nm x, [])]
    done := a.done ++ [nm x] }

theorem blOf_snoc (bl : List (Str × Str)) (nt n : Str) :
    upd (blOf bl) nt (some ((blOf bl nt).getD [] ++ [n])) = blOf (bl ++ [(nt, n)]) := by
  funext m
  by_cases h : m = nt
  · subst h
    rw [upd_same]
    unfold blOf
    simp only [List.filterMap_append, List.filterMap_cons, if_true, List.filterMap_nil]
    split <;> rename_i h0 <;> simp [h0]
  · rw [upd_ne _ _ h]
    unfold blOf
    have hn : ¬ nt = m := fun e => h e.symm
    have e : List.filterMap (fun x : Str × Str => if x.1 = m then some x.2 else none) [(nt, n)] = [] := by
      simp [hn]
    simp only [List.filterMap_append, e, List.append_nil]

theorem addRepeat_rel {op : Op} {a : A} (h : Rel op a) {x : Rx} {t : PN Str Str} (ht : (Rx.rep x).Shown t) :
    ∃ op', addRepeatAsProduction op t = .ok (op', [[nm x]]) ∧ Rel op' (a.reg op.nonterm x) ∧
      op'.nonterm = op.nonterm := by
  have hb : upd op.bludgeons op.nonterm (some ((op.bludgeons op.nonterm).getD [] ++ [nm x])) =
      blOf (a.bl ++ [(op.nonterm, nm x)]) := by
    rw [← blOf_snoc, h.bl, show op.bludgeons = blOf a.bl from funext h.bl]
  unfold addRepeatAsProduction
  rw [getName_shown _ _ ht]
  simp only [Out.bind_ok]
  rw [hb, h.done]
  unfold A.reg
  simp only
  by_cases hd : nm x ∈ a.done
  · rw [if_pos hd, if_pos hd]
    exact ⟨_, rfl, ⟨h.grammar, h.stack, h.done, fun n => rfl⟩, rfl⟩
  · rw [if_neg hd, if_neg hd]
    refine ⟨_, rfl, ⟨h.grammar, ?_, ?_, fun n => rfl⟩, rfl⟩
    · simp only [List.append_assoc]
      refine List.rel_append h.stack ?_
      refine List.Forall₂.cons ⟨rfl, ?_⟩ (List.Forall₂.cons ⟨rfl, ?_⟩ .nil)
      · have hc := shown_clone _ _ ht
        obtain ⟨_, c, h2, h3⟩ := hc
        simp only [PN.kids] at h2 ⊢
        cases hcl : Tree.clone t with
        | node l ks =>
        rw [hcl] at h2
        simp only at h2
        subst h2
        simp only [List.cons_append, List.nil_append]
        refine ⟨_, _, rfl, h3, ⟨_, _, rfl, ⟨rfl, rfl⟩, ?_⟩⟩
        rw [Rx.Showns]
      · simp only [PN.kids]; rw [Rx.Showns]
    · intro n
      by_cases e : n = nm x
      · subst e; simp [upd_same]
      · simp only [upd_ne _ _ e, h.done, List.mem_append, List.mem_singleton, e, or_false]

mutual
theorem evalSymbol_rel : ∀ (x : Rx) (t : PN Str Str), x.Shown t → ∀ {op : Op} {a : A}, Rel op a →
    ∃ op', evalSymbol op t = .ok (op', expand x) ∧ Rel op' ((topReps x).foldl (A.reg op.nonterm) a) ∧
      op'.nonterm = op.nonterm
  | .sym s, .node l ks, h, op, a, hr => by
    obtain ⟨h1, h2⟩ := h
    simp only [PN.kind, PN.lx] at h1 h2
    exact ⟨op, by rw [evalSymbol.eq_def]; simp [h1, h2, expand], hr, rfl⟩
  | .opt x, .node l ks, h, op, a, hr => by
    obtain ⟨h1, c, h2, h3⟩ := h
    simp only [PN.kind, PN.lx, PN.kids] at h1 h2
    subst h2
    obtain ⟨op', e, h4, h5⟩ := evalSymbol_rel x c h3 hr
    exact ⟨op', by rw [evalSymbol.eq_def]; simp [h1, e, expand], h4, h5⟩
  | .or xs, .node l ks, h, op, a, hr => by
    obtain ⟨h1, h2⟩ := h
    simp only [PN.kind, PN.lx, PN.kids] at h1 h2
    obtain ⟨op', e, h4, h5⟩ := evalEach_rel xs ks h2 hr
    exact ⟨op', by rw [evalSymbol.eq_def]; simp [h1, e, expand], h4, h5⟩
  | .group xs, .node l ks, h, op, a, hr => by
    obtain ⟨h1, h2⟩ := h
    simp only [PN.kind, PN.lx, PN.kids] at h1 h2
    obtain ⟨op', e, h4, h5⟩ := evalEach_rel xs ks h2 hr
    exact ⟨op', by rw [evalSymbol.eq_def]; simp [h1, e, expand], h4, h5⟩
  | .rep x, .node l ks, h, op, a, hr => by
    have h1 := h.1
    simp only [PN.kind, PN.lx] at h1
    obtain ⟨op', e, h4, h5⟩ := addRepeat_rel hr h
    exact ⟨op', by rw [evalSymbol.eq_def]; simp [h1, e, expand], h4, h5⟩
theorem evalEach_rel : ∀ (xs : List Rx) (ts : List (PN Str Str)), Rx.Showns xs ts → ∀ {op : Op} {a : A}, Rel op a →
    ∃ op', evalEach op ts = .ok (op', expands xs) ∧ Rel op' ((topRepss xs).foldl (A.reg op.nonterm) a) ∧
      op'.nonterm = op.nonterm
  | [], ts, h, op, a, hr => by
    rw [Rx.Showns] at h; subst h; exact ⟨op, rfl, hr, rfl⟩
  | x :: xs, ts, h, op, a, hr => by
    obtain ⟨c, cs, rfl, h1, h2⟩ := h
    obtain ⟨op1, e1, h3, h4⟩ := evalSymbol_rel x c h1 hr
    obtain ⟨op2, e2, h5, h6⟩ := evalEach_rel xs cs h2 h3
    refine ⟨op2, by simp [evalEach, e1, e2, expands], ?_, h6.trans h4⟩
    rw [topRepss, List.foldl_append, ← h4]
    rw [h4] at h5 ⊢
    exact h5
end

theorem evalMerge_rel : ∀ (xs : List Rx) (ts : List (PN Str Str)), Rx.Showns xs ts → ∀ {op : Op} {a : A} (rs), Rel op a →
    ∃ op', evalMerge op rs ts = .ok (op', (expands xs).foldl mergeRules rs) ∧
      Rel op' ((topRepss xs).foldl (A.reg op.nonterm) a) ∧ op'.nonterm = op.nonterm
  | [], ts, h, op, a, rs, hr => by
    rw [Rx.Showns] at h; subst h; exact ⟨op, rfl, hr, rfl⟩
  | x :: xs, ts, h, op, a, rs, hr => by
    obtain ⟨c, cs, rfl, h1, h2⟩ := h
    obtain ⟨op1, e1, h3, h4⟩ := evalSymbol_rel x c h1 hr
    obtain ⟨op2, e2, h5, h6⟩ := evalMerge_rel xs cs h2 (mergeRules rs (expand x)) h3
    refine ⟨op2, by simp [evalMerge, e1, e2, expands], ?_, h6.trans h4⟩
    rw [topRepss, List.foldl_append]
    rw [h4] at h5
    exact h5

theorem addRules_rep (nt : Str) : ∀ (rs : List (List Str)) {g : Gram Str} {adds}, Grammar.Rep g adds →
    ∃ g', addRules nt g rs = .ok g' ∧ Grammar.Rep g' (adds ++ rs.map fun r => (nt, r))
  | [], g, adds, h => ⟨g, rfl, by simpa using h⟩
  | r :: rs, g, adds, h => by
    obtain ⟨g1, e1, h1⟩ := h.add (false, nt) (some (r.map fun x => (false, x)))
    obtain ⟨g2, e2, h2⟩ := addRules_rep nt rs h1
    have ea : ∀ s x, arg (α := Str) s (false, x) = .other x := fun s x => rfl
    simp only [ea, Option.map_some, List.map_map, Function.comp_def] at e1
    refine ⟨g2, ?_, ?_⟩
    · simp only [addRules]
      rw [show r.map SetSymbol.SymArg.other = r.map (fun x => .other x) from rfl, e1]
      simpa using e2
    · simpa [Function.comp_def] using h2

/-- The rules made of a production. -/
def rulesOf (q : Str × List Rx) : List (Str × List Str) := ((expands q.2).foldl mergeRules [[]]).map fun r => (q.1, r)

/-- Doing a production. -/
def A.step (a : A) (q : Str × List Rx) : A :=
  let a := (topRepss q.2).foldl (A.reg q.1) a
  { a with adds := a.adds ++ rulesOf q }

theorem evalProd_rel {op : Op} {a : A} (h : Rel op a) (q : Str × List Rx) (t : PN Str Str)
    (ht : t.lx.val = q.1 ∧ Rx.Showns q.2 t.kids) : ∃ op', evalProd op t = .ok op' ∧ Rel op' (a.step q) := by
  have h0 : Rel { op with nonterm := t.lx.val } a := ⟨h.grammar, h.stack, h.done, h.bl⟩
  obtain ⟨op1, e1, h1, h2⟩ := evalMerge_rel q.2 t.kids ht.2 [[]] h0
  obtain ⟨g, e2, h3⟩ := addRules_rep op1.nonterm ((expands q.2).foldl mergeRules [[]]) h1.grammar
  simp only at h2
  refine ⟨{ op1 with grammar := g }, ?_, ?_⟩
  · unfold evalProd
    simp only [e1, Out.bind_ok, e2]
  · simp only at h1
    rw [h2, ht.1] at h3
    rw [ht.1] at h1
    exact ⟨h3, h1.stack, h1.done, h1.bl⟩

/-! ### The loop -/

mutual
theorem topReps_parts : ∀ (y x : Rx), x ∈ topReps y → .rep x ∈ y.parts
  | .sym _, x, h => by simp [topReps] at h
  | .opt y, x, h => by
    rw [topReps] at h; rw [Rx.parts]; exact List.mem_cons_of_mem _ (topReps_parts y x h)
  | .or ys, x, h => by
    rw [topReps] at h; rw [Rx.parts]; exact List.mem_cons_of_mem _ (topRepss_parts ys x h)
  | .group ys, x, h => by
    rw [topReps] at h; rw [Rx.parts]; exact List.mem_cons_of_mem _ (topRepss_parts ys x h)
  | .rep y, x, h => by
    rw [topReps, List.mem_singleton] at h; subst h; rw [Rx.parts]; exact List.mem_cons_self
theorem topRepss_parts : ∀ (ys : List Rx) (x : Rx), x ∈ topRepss ys → .rep x ∈ Rx.partss ys
  | [], x, h => by simp [topRepss] at h
  | y :: ys, x, h => by
    rw [topRepss, List.mem_append] at h
    rw [Rx.partss, List.mem_append]
    exact h.imp (topReps_parts y x) (topRepss_parts ys x)
end

theorem self_parts (x : Rx) : x ∈ x.parts := by cases x <;> simp [Rx.parts]

mutual
theorem parts_trans : ∀ (x y z : Rx), y ∈ x.parts → z ∈ y.parts → z ∈ x.parts
  | .sym s, y, z, h1, h2 => by
    rw [Rx.parts, List.mem_singleton] at h1; subst h1; exact h2
  | .opt x, y, z, h1, h2 => by
    rw [Rx.parts, List.mem_cons] at h1
    rcases h1 with rfl | h1
    · exact h2
    · rw [Rx.parts]; exact List.mem_cons_of_mem _ (parts_trans x y z h1 h2)
  | .or xs, y, z, h1, h2 => by
    rw [Rx.parts, List.mem_cons] at h1
    rcases h1 with rfl | h1
    · exact h2
    · rw [Rx.parts]; exact List.mem_cons_of_mem _ (partss_trans xs y z h1 h2)
  | .group xs, y, z, h1, h2 => by
    rw [Rx.parts, List.mem_cons] at h1
    rcases h1 with rfl | h1
    · exact h2
    · rw [Rx.parts]; exact List.mem_cons_of_mem _ (partss_trans xs y z h1 h2)
  | .rep x, y, z, h1, h2 => by
    rw [Rx.parts, List.mem_cons] at h1
    rcases h1 with rfl | h1
    · exact h2
    · rw [Rx.parts]; exact List.mem_cons_of_mem _ (parts_trans x y z h1 h2)
theorem partss_trans : ∀ (xs : List Rx) (y z : Rx), y ∈ Rx.partss xs → z ∈ y.parts → z ∈ Rx.partss xs
  | [], y, z, h1, h2 => by simp [Rx.partss] at h1
  | x :: xs, y, z, h1, h2 => by
    rw [Rx.partss, List.mem_append] at h1 ⊢
    exact h1.imp (fun h => parts_trans x y z h h2) (fun h => partss_trans xs y z h h2)
end

theorem rules_parts_trans {R : RxRules} {y z : Rx} (h1 : y ∈ R.parts) (h2 : z ∈ y.parts) : z ∈ R.parts := by
  unfold RxRules.parts at *
  rw [List.mem_flatMap] at *
  obtain ⟨r, hr, h⟩ := h1
  exact ⟨r, hr, partss_trans _ _ _ h h2⟩

/-- Work left. -/
def weight (st : List (Str × List Rx)) : Nat := (st.map fun q => 1 + 2 * repss q.2).sum

mutual
theorem reps_top : ∀ x : Rx, ((topReps x).map fun y => 1 + reps y).sum = reps x
  | .sym _ => by simp [topReps, reps]
  | .opt x => by rw [topReps, reps]; exact reps_top x
  | .or xs => by rw [topReps, reps]; exact repss_top xs
  | .group xs => by rw [topReps, reps]; exact repss_top xs
  | .rep x => by simp [topReps, reps]; omega
theorem repss_top : ∀ xs : List Rx, ((topRepss xs).map fun y => 1 + reps y).sum = repss xs
  | [] => by simp [topRepss, repss]
  | x :: xs => by
    rw [topRepss, repss, List.map_append, List.sum_append, reps_top x, repss_top xs]
end

theorem weight_append (a b : List (Str × List Rx)) : weight (a ++ b) = weight a + weight b := by
  simp [weight]

theorem weight_reg (nt : Str) (a : A) (x : Rx) : weight (a.reg nt x).stack ≤ weight a.stack + 2 * (1 + reps x) := by
  unfold A.reg
  simp only
  split
  · simp only; omega
  · simp only [weight_append]
    simp [weight, repss, reps]
    omega

theorem weight_regs (nt : Str) : ∀ (xs : List Rx) (a : A),
    weight (xs.foldl (A.reg nt) a).stack ≤ weight a.stack + 2 * (xs.map fun y => 1 + reps y).sum
  | [], a => by simp
  | x :: xs, a => by
    have h1 := weight_regs nt xs (a.reg nt x)
    have h2 := weight_reg nt a x
    simp only [List.foldl_cons, List.map_cons, List.sum_cons]
    omega

/-- The production belongs to the helper for the repetitions of some expression that occurs in the
rules. -/
def Helper (R : RxRules) (q : Str × List Rx) : Prop :=
  ∃ x, .rep x ∈ R.parts ∧ (q = (nm x, [x, .sym (nm x)]) ∨ q = (nm x, []))

/-- The productions of the helpers for the repetitions of the given expressions. -/
def pairs (L : List Rx) : List (Str × List Rx) := L.flatMap fun x => [(nm x, [x, .sym (nm x)]), (nm x, [])]

/-- What holds during the loop when `P` are the productions done, apart from those met since. -/
structure Inv (R : RxRules) (P : List (Str × List Rx)) (a : A) : Prop where
  all : ∃ tail, P ++ a.stack = R ++ tail ∧ (∀ q ∈ tail, Helper R q) ∧
    ∃ L, tail = pairs L ∧ a.done = L.map nm ∧ a.done.Nodup
  adds : a.adds = P.flatMap rulesOf
  done : ∀ n ∈ a.done, ∃ x, n = nm x ∧ .rep x ∈ R.parts ∧
    (n, [x, Rx.sym n]) ∈ P ++ a.stack ∧ (n, []) ∈ P ++ a.stack
  met : ∀ q ∈ P, ∀ x ∈ topRepss q.2, nm x ∈ a.done
  bl : a.bl = P.flatMap fun q => (topRepss q.2).map fun x => (q.1, nm x)

/-- What holds while the repetitions of a production are met. -/
structure Mid (R : RxRules) (P : List (Str × List Rx)) (q : Str × List Rx) (ms : List Rx) (a : A) : Prop where
  all : ∃ tail, P ++ q :: a.stack = R ++ tail ∧ (∀ q ∈ tail, Helper R q) ∧
    ∃ L, tail = pairs L ∧ a.done = L.map nm ∧ a.done.Nodup
  adds : a.adds = P.flatMap rulesOf
  done : ∀ n ∈ a.done, ∃ x, n = nm x ∧ .rep x ∈ R.parts ∧
    (n, [x, Rx.sym n]) ∈ P ++ q :: a.stack ∧ (n, []) ∈ P ++ q :: a.stack
  met : ∀ q ∈ P, ∀ x ∈ topRepss q.2, nm x ∈ a.done
  metq : ∀ x ∈ ms, nm x ∈ a.done
  bl : a.bl = (P.flatMap fun q => (topRepss q.2).map fun x => (q.1, nm x)) ++ ms.map fun x => (q.1, nm x)

theorem Mid.reg {R P q ms a} (h : Mid R P q ms a) {x : Rx} (hx : .rep x ∈ R.parts) :
    Mid R P q (ms ++ [x]) (a.reg q.1 x) := by
  unfold A.reg
  simp only
  have hbl : a.bl ++ [(q.1, nm x)] = (P.flatMap fun q => (topRepss q.2).map fun x => (q.1, nm x)) ++
      (ms ++ [x]).map fun x => (q.1, nm x) := by
    rw [h.bl]; simp
  by_cases hd : nm x ∈ a.done
  · rw [if_pos hd]
    refine ⟨h.all, h.adds, h.done, h.met, ?_, hbl⟩
    intro y hy
    rw [List.mem_append, List.mem_singleton] at hy
    rcases hy with hy | rfl
    · exact h.metq y hy
    · exact hd
  · rw [if_neg hd]
    refine ⟨?_, h.adds, ?_, ?_, ?_, hbl⟩
    · obtain ⟨tail, e, ht, L, eL, e1, e2⟩ := h.all
      refine ⟨tail ++ [(nm x, [x, .sym (nm x)]), (nm x, [])], ?_, ?_, L ++ [x], ?_, ?_, ?_⟩
      · simp only
        rw [← List.append_assoc R, ← e]; simp
      · intro p hp
        rw [List.mem_append] at hp
        rcases hp with hp | hp
        · exact ht p hp
        · refine ⟨x, hx, ?_⟩
          simpa using hp
      · rw [eL]; simp [pairs]
      · simp [e1]
      · rw [List.nodup_append]
        refine ⟨e2, by simp, ?_⟩
        intro y hy z hz
        rw [List.mem_singleton] at hz
        rintro rfl
        exact hd (hz ▸ hy)
    · intro n hn
      simp only [List.mem_append, List.mem_singleton] at hn
      rcases hn with hn | rfl
      · obtain ⟨y, e, h1, h2, h3⟩ := h.done n hn
        refine ⟨y, e, h1, ?_, ?_⟩
        · simp only [List.mem_append, List.mem_cons] at h2 ⊢; tauto
        · simp only [List.mem_append, List.mem_cons] at h3 ⊢; tauto
      · exact ⟨x, rfl, hx, by simp, by simp⟩
    · intro p hp y hy
      exact List.mem_append_left _ (h.met p hp y hy)
    · intro y hy
      rw [List.mem_append, List.mem_singleton] at hy
      rcases hy with hy | rfl
      · exact List.mem_append_left _ (h.metq y hy)
      · exact List.mem_append_right _ (by simp)

theorem Mid.regs {R P q} : ∀ (xs : List Rx) {ms a}, Mid R P q ms a → (∀ x ∈ xs, .rep x ∈ R.parts) →
    Mid R P q (ms ++ xs) (xs.foldl (A.reg q.1) a)
  | [], ms, a, h, _ => by simpa using h
  | x :: xs, ms, a, h, hx => by
    have h1 := h.reg (hx x (by simp))
    have h2 := Mid.regs xs h1 (fun y hy => hx y (by simp [hy]))
    simpa using h2

theorem Inv.step {R P a q st} (h : Inv R P a) (hs : a.stack = q :: st) :
    Inv R (P ++ [q]) (({ a with stack := st } : A).step q) := by
  have h0 : Mid R P q [] { a with stack := st } := by
    refine ⟨?_, h.adds, ?_, h.met, by simp, by rw [h.bl]; simp⟩
    · obtain ⟨tail, e, ht⟩ := h.all
      exact ⟨tail, by simp only; rw [← hs]; exact e, ht⟩
    · have := h.done
      rw [hs] at this
      exact this
  have hp : ∀ x ∈ topRepss q.2, .rep x ∈ R.parts := by
    intro x hx
    have hx := topRepss_parts _ _ hx
    obtain ⟨tail, e, ht, _⟩ := h.all
    have hq : q ∈ R ++ tail := by rw [← e, hs]; simp
    rw [List.mem_append] at hq
    rcases hq with hq | hq
    · exact List.mem_flatMap.2 ⟨q, hq, hx⟩
    · obtain ⟨y, hy, rfl | rfl⟩ := ht q hq
      · simp only [Rx.partss, Rx.parts, List.append_nil, List.mem_append, List.mem_singleton, reduceCtorEq, or_false] at hx
        exact rules_parts_trans hy (by rw [Rx.parts]; exact List.mem_cons_of_mem _ hx)
      · simp [Rx.partss] at hx
  have h1 := Mid.regs _ h0 hp
  simp only [List.nil_append] at h1
  unfold A.step
  simp only
  refine ⟨?_, ?_, ?_, ?_, ?_⟩
  · simpa using h1.all
  · simp only [List.flatMap_append, List.flatMap_cons, List.flatMap_nil, List.append_nil]
    rw [h1.adds]
  · simpa using h1.done
  · intro p hp x hx
    rw [List.mem_append, List.mem_singleton] at hp
    rcases hp with hp | rfl
    · exact h1.met p hp x hx
    · exact h1.metq x hx
  · simp only [List.flatMap_append, List.flatMap_cons, List.flatMap_nil, List.append_nil]
    rw [h1.bl]

theorem evalLoop_rel (R : RxRules) : ∀ (w : Nat) {op : Op} {a : A} {P}, weight a.stack ≤ w → Rel op a → Inv R P a →
    ∃ N op' a' P', (∀ n ≥ N, evalLoop n op = .ok op') ∧ Rel op' a' ∧ Inv R P' a' ∧ a'.stack = [] := by
  intro w
  induction w with
  | zero =>
    intro op a P hw hr hi
    cases hs : a.stack with
    | cons q st => rw [hs] at hw; simp [weight] at hw
    | nil =>
      have hs' := hr.stack
      rw [hs] at hs'
      cases hs'' : op.stack with
      | cons t ts => rw [hs''] at hs'; cases hs'
      | nil =>
        refine ⟨1, op, a, P, ?_, hr, hi, hs⟩
        intro n hn
        obtain ⟨m, rfl⟩ := Nat.exists_eq_add_of_le' hn
        simp [evalLoop, hs'']
  | succ w ih =>
    intro op a P hw hr hi
    cases hs : a.stack with
    | nil =>
      have hs' := hr.stack
      rw [hs] at hs'
      cases hs'' : op.stack with
      | cons t ts => rw [hs''] at hs'; cases hs'
      | nil =>
        refine ⟨1, op, a, P, ?_, hr, hi, hs⟩
        intro n hn
        obtain ⟨m, rfl⟩ := Nat.exists_eq_add_of_le' hn
        simp [evalLoop, hs'']
    | cons q st =>
      have hs' := hr.stack
      rw [hs] at hs'
      cases hs'' : op.stack with
      | nil => rw [hs''] at hs'; cases hs'
      | cons t ts =>
        rw [hs''] at hs'
        have hq := List.forall₂_cons.1 hs'
        have hr0 : Rel { op with stack := ts } { a with stack := st } := ⟨hr.grammar, hq.2, hr.done, hr.bl⟩
        obtain ⟨op1, e1, h1⟩ := evalProd_rel hr0 q t hq.1
        have h2 := hi.step hs
        have hw2 : weight (({ a with stack := st } : A).step q).stack ≤ w := by
          have := weight_regs q.1 (topRepss q.2) { a with stack := st }
          rw [repss_top] at this
          rw [hs] at hw
          simp only [weight, List.map_cons, List.sum_cons] at hw
          simp only [A.step]
          simp only [weight] at this ⊢
          omega
        obtain ⟨N, op', a', P', e2, h3, h4, h5⟩ := ih hw2 h1 h2
        refine ⟨N + 1, op', a', P', ?_, h3, h4, h5⟩
        intro n hn
        obtain ⟨m, rfl⟩ := Nat.exists_eq_add_of_le' (Nat.le_trans (Nat.le_add_left 1 N) hn)
        simp only [evalLoop, hs'', e1, Out.bind_ok]
        exact e2 m (by omega)

theorem initStack_shown : ∀ (R : RxRules) (nt : Str) (ts : List (PN Str Str)), RulesShown nt R ts →
    List.Forall₂ (fun (q : Str × List Rx) t => t.lx.val = q.1 ∧ Rx.Showns q.2 t.kids) R (initStack nt ts)
  | [], nt, ts, h => by rw [RulesShown] at h; subst h; exact .nil
  | r :: R, nt, ts, h => by
    obtain ⟨c, cs, rfl, h1, h2, h3⟩ := h
    cases c with
    | node l ks =>
    simp only [PN.kind, PN.lx, PN.kids] at h1 h2
    rw [initStack]
    by_cases hk : l.kind = "Production".toList
    · rw [if_pos hk]
      have h2 := h2.1 hk
      rw [h2]
      exact .cons ⟨h2, h1⟩ (initStack_shown R _ _ h3)
    · rw [if_neg hk]
      obtain rfl := h2.2 hk
      exact .cons ⟨rfl, h1⟩ (initStack_shown R _ _ h3)

/-- The result of `evalGrammar`: the rules come from productions `R ++ tail`, where `tail` has the two
productions of helpers, and for every repetition there is a helper of its name. -/
theorem evalGrammar_spec {R : RxRules} {root : PN Str Str} (h : RulesShown [] R root.kids) :
    ∃ g b tail, Out.Returns (fun n => evalGrammar n root) (g, b) ∧
      Grammar.Rep g ((R ++ tail).flatMap rulesOf) ∧ (∀ q ∈ tail, Helper R q) ∧
      (∀ q ∈ R ++ tail, ∀ x ∈ topRepss q.2, ∃ y, nm y = nm x ∧ .rep y ∈ R.parts ∧
        (nm x, [y, Rx.sym (nm x)]) ∈ R ++ tail ∧ (nm x, []) ∈ R ++ tail) ∧
      (∃ L, tail = pairs L ∧ (L.map nm).Nodup) ∧
      (∀ n, b n = blOf ((R ++ tail).flatMap fun q => (topRepss q.2).map fun x => (q.1, nm x)) n) := by
  have hr : Rel ⟨Grammar.empty, initStack [] root.kids, [], fun _ => none, fun _ => none⟩ ⟨[], R, [], []⟩ :=
    ⟨Grammar.rep_empty, initStack_shown R [] _ h, fun n => by simp, fun n => by simp [blOf]⟩
  have hi : Inv R [] ⟨[], R, [], []⟩ := ⟨⟨[], by simp, by simp, [], by simp [pairs]⟩, rfl, by simp, by simp, rfl⟩
  obtain ⟨N, op, a, P, e, h1, h2, h3⟩ := evalLoop_rel R _ (Nat.le_refl _) hr hi
  obtain ⟨tail, et, ht, L, eL, e1, e2⟩ := h2.all
  rw [h3, List.append_nil] at et
  refine ⟨op.grammar, op.bludgeons, tail, ⟨N, ?_⟩, ?_, ht, ?_, ⟨L, eL, e1 ▸ e2⟩, ?_⟩
  · intro n hn
    simp only [evalGrammar, e n hn, Out.bind_ok]
  · rw [← et, ← h2.adds]; exact h1.grammar
  · intro q hq x hx
    rw [← et] at hq ⊢
    obtain ⟨y, e1, e2, e3, e4⟩ := h2.done _ (h2.met q hq x hx)
    rw [h3, List.append_nil] at e3 e4
    exact ⟨y, e1.symm, e2, e3, e4⟩
  · intro n
    rw [← et, ← h2.bl]; exact h1.bl n

end Verif.RegexGram
