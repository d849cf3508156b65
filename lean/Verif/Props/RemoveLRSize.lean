import Verif.Spec.GrammarSize
import Verif.Props.RemoveLR
/-
C98: how many productions `RemoveLeftRecursion` makes (grammar/left_recursion.go).
-/
namespace Verif.Props.RemoveLRSize
open Verif.Spec Verif.Spec.Grammar Verif.Spec.RemoveLR Verif.LeftRecursion Verif.Grammar
open Verif.Props.Grammar (Shows)
open Verif.Props.RemoveLR

variable {g : Spec.Grammar Str}

/-! ### Specification -/

/-- No production is empty. -/
def NoEmpty (g : Spec.Grammar Str) : Prop := ∀ A k, ¬ g.Rule A k []

/-! ### The bound -/

theorem filter_lt {α : Type} {p q : α → Bool} {l : List α} (h : ∀ x, p x = true → q x = true) {y : α} (hy : y ∈ l)
    (hq : q y = true) (hp : p y = false) : (l.filter p).length < (l.filter q).length := by
  induction l with
  | nil => cases hy
  | cons a l ih =>
    have hle : ∀ l : List α, (l.filter p).length ≤ (l.filter q).length := by
      intro l
      induction l with
      | nil => simp
      | cons a l ih =>
        simp only [List.filter_cons]
        cases hpa : p a
        · cases q a <;> simp <;> omega
        · rw [h a hpa]; simp; exact ih
    simp only [List.filter_cons]
    rcases List.mem_cons.1 hy with rfl | hy
    · rw [hp, hq]
      have := hle l
      simp
      omega
    · have := ih hy
      cases hpa : p a
      · cases q a <;> simp <;> omega
      · rw [h a hpa]; simp; exact this

open Classical in
/-- How many of `done` can be reached from `F`. -/
noncomputable def deep (g : Spec.Grammar Str) (done : List Str) (F : Str) : Nat :=
  (done.filter fun G => decide (Plus (LeadStep g done) F G)).length

theorem plus_trans {β : Type} {R : β → β → Prop} {a b c : β} (h1 : Plus R a b) (h2 : Plus R b c) : Plus R a c := by
  induction h1 with
  | one h => exact .step h h2
  | step h _ ih => exact .step h (ih h2)

theorem deep_step {done : List Str} {F G : Str} (h : LeadStep g done F G) (hG : ¬ Plus (LeadStep g done) G G) :
    deep g done G < deep g done F := by
  classical
  unfold deep
  refine filter_lt (fun x hx => ?_) h.1 (y := G) ?_ ?_
  · exact decide_eq_true (.step h (of_decide_eq_true hx))
  · exact decide_eq_true (.one h)
  · exact decide_eq_false hG

theorem deep_lt {done : List Str} {F : Str} (hF : F ∈ done) (h : ¬ Plus (LeadStep g done) F F) :
    deep g done F < done.length := by
  classical
  have := filter_lt (l := done) (p := fun G => decide (Plus (LeadStep g done) F G)) (q := fun _ => true)
    (fun _ _ => rfl) hF rfl (decide_eq_false h)
  rw [show (done.filter fun _ => true) = done from List.filter_eq_self.2 fun _ _ => rfl] at this
  exact this

/-- What a production can expand to, at most. -/
noncomputable def weight (g : Spec.Grammar Str) (done : List Str) (R : Nat) (p : List Str) : Nat :=
  match p with
  | [] => 1
  | F :: _ => if F ∈ done then R ^ (deep g done F + 1) else 1

theorem sum_le {α : Type} (f : α → Nat) {c : Nat} {l : List α} (h : ∀ x ∈ l, f x ≤ c) : (l.map f).sum ≤ l.length * c := by
  induction l with
  | nil => simp
  | cons a l ih =>
    have h1 := h a (List.mem_cons_self ..)
    have h2 := ih fun x hx => h x (List.mem_cons_of_mem _ hx)
    simp only [List.map_cons, List.sum_cons, List.length_cons, Nat.succ_mul]
    omega

theorem le_sum {l : List Nat} {x : Nat} (h : x ∈ l) : x ≤ l.sum := by
  induction l with
  | nil => cases h
  | cons a l ih =>
    rw [List.sum_cons]
    rcases List.mem_cons.1 h with rfl | h
    · omega
    · have := ih h; omega

theorem expands_length (hne : NoEmpty g) {done : List Str} {R : Nat} (hR : ∀ A rs, g.prods A = some rs → rs.length ≤ R)
    {A : Str} (hA : ∀ F, Plus (LeadStep g done) A F → ¬ Plus (LeadStep g done) F F) {ps qs : List (List Str)}
    (h : Expands g done ps qs)
    (hp : ∀ p ∈ ps, ∀ F, p.head? = some F → F ∈ done → Plus (LeadStep g done) A F) :
    qs.length ≤ (ps.map (weight g done R)).sum := by
  induction h with
  | nil => simp
  | @keep p ps qs hk _ ih =>
    have := ih fun p' hp' => hp p' (List.mem_cons_of_mem _ hp')
    have hw : weight g done R p = 1 := by
      cases p with
      | nil => rfl
      | cons F t => exact if_neg (hk F rfl)
    simp only [List.length_cons, List.map_cons, List.sum_cons, hw]
    omega
  | @subst F t rs ps qs hF hrs _ ih =>
    have hAF := hp (F :: t) (List.mem_cons_self ..) F rfl hF
    have lead : ∀ r ∈ rs, ∃ G u, r = G :: u ∧ (G ∈ done → LeadStep g done F G) := by
      intro r hr
      obtain ⟨k, hk⟩ := List.mem_iff_getElem?.1 hr
      cases r with
      | nil => exact absurd ⟨rs, hrs, hk⟩ (hne F k)
      | cons G u => exact ⟨G, u, rfl, fun hG => ⟨hG, k, [], u, ⟨rs, hrs, hk⟩, by simp⟩⟩
    have := ih (by
      intro p hp' G hG hGd
      rcases List.mem_append.1 hp' with h | h
      · obtain ⟨r, hr, rfl⟩ := List.mem_map.1 h
        obtain ⟨G', u, rfl, hl⟩ := lead r hr
        cases hG
        exact plus_trans hAF (.one (hl hGd))
      · exact hp p (List.mem_cons_of_mem _ h) G hG hGd)
    refine Nat.le_trans this ?_
    simp only [List.map_append, List.sum_append, List.map_cons, List.sum_cons, List.map_map]
    have e : weight g done R (F :: t) = R ^ (deep g done F + 1) := if_pos hF
    rw [e]
    refine Nat.add_le_add_right ?_ _
    refine Nat.le_trans (sum_le (c := R ^ deep g done F) _ fun r hr => ?_) ?_
    · obtain ⟨G, u, rfl, hl⟩ := lead r hr
      have hR1 : 1 ≤ R := Nat.le_trans (List.length_pos_of_mem hr) (hR F rs hrs)
      show (if G ∈ done then R ^ (deep g done G + 1) else 1) ≤ _
      split
      · next hG =>
        have hs := hl hG
        exact Nat.pow_le_pow_right hR1 (deep_step hs (hA G (plus_trans hAF (.one hs))))
      · exact Nat.one_le_pow _ _ hR1
    · rw [Nat.pow_succ, Nat.mul_comm]
      exact Nat.mul_le_mul_left _ (hR F rs hrs)

theorem expanded_length (hw : g.WF) (hne : NoEmpty g) {R : Nat} (hR : ∀ A rs, g.prods A = some rs → rs.length ≤ R)
    {M} (hM : Expanded g M) {A : Str} (hA : A ∈ g.order) : (M A).length ≤ R ^ ((before g A).length + 1) := by
  obtain ⟨ps, hps⟩ := Option.isSome_iff_exists.1 ((hw A).2 hA)
  have hL := (expanded_iff hw).1 ⟨M, hM⟩ A hA
  have lead : ∀ p ∈ ps, ∀ F, p.head? = some F → F ∈ before g A → LeadStep g (before g A) A F := by
    intro p hp F hF hFd
    obtain ⟨k, hk⟩ := List.mem_iff_getElem?.1 hp
    cases p with
    | nil => cases hF
    | cons G u => cases hF; exact ⟨hFd, k, [], u, ⟨ps, hps, hk⟩, by simp⟩
  refine Nat.le_trans (expands_length hne hR hL (hM A ps hA hps) fun p hp F hF hFd => .one (lead p hp F hF hFd)) ?_
  refine Nat.le_trans (sum_le (c := R ^ (before g A).length) _ fun p hp => ?_) ?_
  · have hR1 : 1 ≤ R := Nat.le_trans (List.length_pos_of_mem hp) (hR A ps hps)
    cases p with
    | nil => exact Nat.one_le_pow _ _ hR1
    | cons F t =>
      show (if F ∈ before g A then R ^ (deep g (before g A) F + 1) else 1) ≤ _
      split
      · next hF => exact Nat.pow_le_pow_right hR1 (deep_lt hF (hL F (.one (lead _ hp F rfl hF))))
      · exact Nat.one_le_pow _ _ hR1
  · rw [Nat.pow_succ, Nat.mul_comm]
    exact Nat.mul_le_mul_left _ (hR A ps hps)

theorem before_lt {A : Str} (hA : A ∈ g.order) : (before g A).length < g.order.length := by
  unfold before
  generalize g.order = l at hA
  induction l with
  | nil => cases hA
  | cons B l ih =>
    rw [List.takeWhile_cons]
    by_cases hB : B = A
    · simp [hB]
    · rcases List.mem_cons.1 hA with h | h
      · exact absurd h.symm hB
      · have := ih h
        simp [hB]
        simpa using this

/-- C98, the bound: of the `i`-th nonterminal (from 0), and the new one for it, there are together at most
`R^(i+1) + 1` productions if no production is empty and no nonterminal has more than `R`; so with `n`
nonterminals at most `n * (R^n + 1)` in all. -/
theorem C98_bound_partial (hw : g.WF) (hnd : g.order.Nodup) (hfull : Full g) (hfresh : Fresh g)
    (hgr : Grounded g) (hne : NoEmpty g) {R : Nat} (hR : ∀ A rs, g.prods A = some rs → rs.length ≤ R)
    {out} (h : Out.Returns (removeLeftRecursion g) out) :
    ∃ G : Spec.Grammar Str, Shows out G ∧ numProds G ≤ g.order.length * (R ^ g.order.length + 1) ∧
      ∀ A ∈ g.order, ((G.prods A).getD []).length + ((G.prods (primed A)).getD []).length ≤ R ^ ((before g A).length + 1) + 1 := by
  obtain ⟨M, hM, h1, h2⟩ := C54_result_partial hw hnd hfull hfresh hgr h
  have hold : ∀ A ∈ g.order, Old g.order A := fun A hA => old_of_fresh hfresh (.inl hA)
  have hsplit : ∀ A, (heads M A).length + (tails M A).length ≤ (M A).length + 1 := by
    intro A
    have e1 : (heads M A).length = ((M A).filter fun q => q.head? ≠ some A).length := by simp [heads]
    have e2 : (tails M A).length ≤ ((M A).filter fun q => q.head? = some A).length + 1 := by
      simp only [tails, List.length_append, List.length_map, List.length_singleton]
      have := List.length_filter_le (fun q => decide (q ≠ []))
        (((M A).filter fun q => q.head? = some A).map fun q => q.dropWhile (· = A))
      rw [List.length_map] at this
      omega
    have e3 : ∀ l : List (List Str), (l.filter fun q => decide (q.head? ≠ some A)).length +
        (l.filter fun q => decide (q.head? = some A)).length = l.length := by
      intro l
      induction l with
      | nil => rfl
      | cons q l ih =>
        simp only [List.filter_cons]
        by_cases hq : q.head? = some A
        · simp [hq] at ih ⊢; omega
        · simp [hq] at ih ⊢; omega
    have := e3 (M A)
    omega
  have hmem : ∀ A ∈ g.order, (removed g.order M).prods A = some (if Direct M A then heads M A else M A) :=
    fun A hA => removed_mem hA
  have hprim : ∀ A ∈ g.order, (removed g.order M).prods (primed A) = if Direct M A then some (tails M A) else none := by
    intro A hA
    by_cases hd : Direct M A
    · rw [if_pos hd, removed_primed hold hA hd]
    · rw [if_neg hd]
      have h0 : primed A ∉ g.order := fun h => hold _ h A hA rfl
      simp only [removed, h0, if_false, Option.map_eq_none_iff, List.find?_eq_none]
      intro B hB
      by_cases e : primed B = primed A
      · rw [primed_inj e]; simp [hd]
      · simp [e]
  have key : ∀ A ∈ g.order, (((removed g.order M).prods A).getD []).length +
      (((removed g.order M).prods (primed A)).getD []).length ≤ R ^ ((before g A).length + 1) + 1 := by
    intro A hA
    have hl := expanded_length hw hne hR hM hA
    rw [hmem A hA, hprim A hA]
    have := hsplit A
    by_cases hd : Direct M A
    · simp only [if_pos hd, Option.getD_some]; omega
    · simp only [if_neg hd, Option.getD_some, Option.getD_none, List.length_nil]; omega
  refine ⟨_, h1, ?_, key⟩
  have hsum : numProds (removed g.order M) ≤ (g.order.map fun A => (((removed g.order M).prods A).getD []).length +
      (((removed g.order M).prods (primed A)).getD []).length).sum := by
    unfold numProds
    show ((g.order.flatMap fun A => if Direct M A then [A, primed A] else [A]).map _).sum ≤ _
    generalize (removed g.order M).prods = P
    generalize g.order = l
    induction l with
    | nil => simp
    | cons A l ih =>
      simp only [List.flatMap_cons, List.map_append, List.sum_append, List.map_cons, List.sum_cons]
      by_cases hd : Direct M A
      · simp only [if_pos hd, List.map_cons, List.map_nil, List.sum_cons, List.sum_nil]; omega
      · simp only [if_neg hd, List.map_cons, List.map_nil, List.sum_cons, List.sum_nil]; omega
  refine Nat.le_trans hsum (sum_le (c := R ^ g.order.length + 1) _ fun A hA => Nat.le_trans (key A hA) ?_)
  obtain ⟨ps, hps⟩ := Option.isSome_iff_exists.1 ((hw A).2 hA)
  have hR1 : 1 ≤ R := by
    refine Nat.le_trans (List.length_pos_iff.2 fun e => ?_) (hR A ps hps)
    exact hfull A (e ▸ hps)
  exact Nat.add_le_add_right (Nat.pow_le_pow_right hR1 (before_lt hA)) 1

/-! ### Grammars that grow -/

/-- The names of nonterminals. -/
def nm (i : Nat) : Str := List.replicate (i + 1) 'A'

/-- `A -> x`, and for every name `A…A` longer than that, up to `n + 1` letters, two productions: the name
with a letter less, followed by `y` or by `z`. -/
def chainG (n : Nat) : Spec.Grammar Str where
  order := (List.range (n + 1)).map nm
  prods X := if X ∈ (List.range (n + 1)).map nm then
      some (if X = ['A'] then [[['x']]] else [[X.tail, ['y']], [X.tail, ['z']]])
    else none

/-- What `nm i` expands to: `x` followed by `i` letters from `y` and `z`. -/
def words : Nat → List (List Str)
  | 0 => [[['x']]]
  | i + 1 => (words i).map (· ++ [['y']]) ++ (words i).map (· ++ [['z']])

theorem words_length (i : Nat) : (words i).length = 2 ^ i := by
  induction i with
  | zero => rfl
  | succ i ih => simp only [words, List.length_append, List.length_map, ih, Nat.pow_succ]; omega

theorem words_head (i : Nat) : ∀ q ∈ words i, q.head? = some ['x'] := by
  induction i with
  | zero => simp [words]
  | succ i ih =>
    intro q hq
    simp only [words, List.mem_append, List.mem_map] at hq
    rcases hq with ⟨p, hp, rfl⟩ | ⟨p, hp, rfl⟩ <;>
    · have := ih p hp
      cases p with
      | nil => cases this
      | cons a p => exact this

theorem nm_inj {i j : Nat} (h : nm i = nm j) : i = j := by
  have := congrArg List.length h
  simpa [nm] using this

theorem nm_chars {i : Nat} {c : Char} (h : c ∈ nm i) : c = 'A' := List.eq_of_mem_replicate h

theorem mem_order {n : Nat} {X : Str} : X ∈ (chainG n).order ↔ ∃ i, i ≤ n ∧ nm i = X := by
  simp only [chainG, List.mem_map, List.mem_range]
  constructor
  · rintro ⟨i, h, e⟩; exact ⟨i, by omega, e⟩
  · rintro ⟨i, h, e⟩; exact ⟨i, by omega, e⟩

theorem prods_zero (n : Nat) : (chainG n).prods (nm 0) = some [[['x']]] := by
  have : nm 0 ∈ (List.range (n + 1)).map nm := mem_order.2 ⟨0, Nat.zero_le _, rfl⟩
  simp only [chainG, if_pos this]
  rfl

theorem prods_succ {n i : Nat} (h : i + 1 ≤ n) : (chainG n).prods (nm (i + 1)) = some [[nm i, ['y']], [nm i, ['z']]] := by
  have hm : nm (i + 1) ∈ (List.range (n + 1)).map nm := mem_order.2 ⟨i + 1, h, rfl⟩
  have hne : nm (i + 1) ≠ ['A'] := fun e => by have := nm_inj (j := 0) e; omega
  simp only [chainG, if_pos hm, if_neg hne]
  rfl

theorem before_chain {n i : Nat} (h : i ≤ n) : before (chainG n) (nm i) = (List.range i).map nm := by
  unfold before
  show ((List.range (n + 1)).map nm).takeWhile _ = _
  obtain ⟨k, hk⟩ : ∃ k, n + 1 = i + (k + 1) := ⟨n - i, by omega⟩
  rw [hk, List.range_add, List.map_append, List.takeWhile_append_of_pos]
  · simp [List.range_succ_eq_map]
  · intro X hX
    obtain ⟨j, hj, rfl⟩ := List.mem_map.1 hX
    have := List.mem_range.1 hj
    simp only [ne_eq, decide_not, Bool.not_eq_eq_eq_not, Bool.not_true, decide_eq_false_iff_not]
    intro e
    have := nm_inj e
    omega

theorem x_not_done (k : Nat) : ['x'] ∉ (List.range k).map nm := by
  intro h
  obtain ⟨j, -, e⟩ := List.mem_map.1 h
  have := nm_chars (i := j) (c := 'x') (by rw [e]; simp)
  revert this
  decide

theorem expands_chain {n k : Nat} (hk : k ≤ n + 1) (i : Nat) : ∀ {t ps qs}, i < k →
    Expands (chainG n) ((List.range k).map nm) ps qs →
    Expands (chainG n) ((List.range k).map nm) ((nm i :: t) :: ps) ((words i).map (· ++ t) ++ qs) := by
  induction i with
  | zero =>
    intro t ps qs hi h
    refine .subst (List.mem_map.2 ⟨0, List.mem_range.2 hi, rfl⟩) (prods_zero n) ?_
    refine .keep (fun F hF => ?_) h
    cases hF
    exact x_not_done k
  | succ i ih =>
    intro t ps qs hi h
    refine .subst (List.mem_map.2 ⟨i + 1, List.mem_range.2 hi, rfl⟩) (prods_succ (by omega)) ?_
    have := ih (t := ['y'] :: t) (by omega) (ih (t := ['z'] :: t) (by omega) h)
    simpa [words, List.map_map, Function.comp_def] using this

theorem expands_words {n i : Nat} (h : i ≤ n) {ps} (hps : (chainG n).prods (nm i) = some ps) :
    Expands (chainG n) (before (chainG n) (nm i)) ps (words i) := by
  rw [before_chain h]
  cases i with
  | zero =>
    rw [prods_zero] at hps
    cases hps
    exact .keep (fun F hF => by cases hF; exact x_not_done 0) .nil
  | succ i =>
    rw [prods_succ h] at hps
    cases hps
    have := expands_chain (n := n) (k := i + 1) (by omega) i (t := [['y']]) (by omega)
      (expands_chain (n := n) (k := i + 1) (by omega) i (t := [['z']]) (by omega) .nil)
    simpa [words] using this

theorem chain_wf (n : Nat) : (chainG n).WF := by
  intro X
  show (Option.isSome (if X ∈ (List.range (n + 1)).map nm then _ else none) = true) ↔ X ∈ (List.range (n + 1)).map nm
  by_cases h : X ∈ (List.range (n + 1)).map nm
  · rw [if_pos h]; simp only [Option.isSome_some, h]
  · rw [if_neg h]; simp only [Option.isSome_none, h, Bool.false_eq_true]

theorem chain_rule {n : Nat} {A : Str} {ps} (h : (chainG n).prods A = some ps) :
    ∃ i, i ≤ n ∧ A = nm i ∧ (ps = [[['x']]] ∧ i = 0 ∨ ∃ j, i = j + 1 ∧ ps = [[nm j, ['y']], [nm j, ['z']]]) := by
  obtain ⟨i, hi, rfl⟩ := mem_order.1 (((chain_wf n) A).1 (by rw [h]; rfl))
  refine ⟨i, hi, rfl, ?_⟩
  cases i with
  | zero => rw [prods_zero] at h; cases h; exact .inl ⟨rfl, rfl⟩
  | succ i => rw [prods_succ hi] at h; cases h; exact .inr ⟨i, rfl, rfl⟩

/-- C98 is refuted: grammars without left recursion, with `n + 1` nonterminals, `2 n + 1` productions, at
most two of a nonterminal and of at most two symbols each, come out with at least `2^n` productions, all leading nonterminals having been
replaced. -/
theorem C98_refuted (n : Nat) : ∃ g : Spec.Grammar Str, g.WF ∧ g.order.Nodup ∧ Full g ∧ Fresh g ∧ Grounded g ∧ NoEmpty g ∧
    ¬ g.LeftRecursive ∧ g.order.length = n + 1 ∧ numProds g = 2 * n + 1 ∧ (∀ A k p, g.Rule A k p → p.length ≤ 2) ∧
    (∀ A rs, g.prods A = some rs → rs.length ≤ 2) ∧ ∃ out G, Out.Returns (removeLeftRecursion g) out ∧ Shows out G ∧ 2 ^ n ≤ numProds G := by
  have hw := chain_wf n
  have hnd : (chainG n).order.Nodup := by
    unfold List.Nodup
    show List.Pairwise _ ((List.range (n + 1)).map nm)
    rw [List.pairwise_map]
    exact List.nodup_range.imp fun h e => h (nm_inj e)
  have hfull : Full (chainG n) := by
    intro A h
    obtain ⟨i, -, -, ⟨h, -⟩ | ⟨j, -, h⟩⟩ := chain_rule h <;> cases h
  have hrule : ∀ A k p, (chainG n).Rule A k p → p ≠ [] ∧ p.length ≤ 2 ∧ ∀ X ∈ p, '\'' ∉ X := by
    rintro A k p ⟨ps, h1, h2⟩
    have hp := List.mem_of_getElem? h2
    have hq : ∀ j, '\'' ∉ nm j := fun j h => by have := nm_chars h; revert this; decide
    obtain ⟨i, -, -, ⟨rfl, -⟩ | ⟨j, -, rfl⟩⟩ := chain_rule h1
    · simp only [List.mem_singleton] at hp
      subst hp
      simp
    · simp only [List.mem_cons, List.not_mem_nil, or_false] at hp
      rcases hp with rfl | rfl <;> simp [hq]
  have hfresh : Fresh (chainG n) := by
    intro A hA h
    have hq : '\'' ∈ primed A := by simp [primed]
    rcases h with h | ⟨B, k, p, h1, h2⟩
    · obtain ⟨i, -, e⟩ := mem_order.1 h
      rw [← e] at hq
      have := nm_chars hq
      revert this
      decide
    · exact (hrule B k p h1).2.2 _ h2 hq
  have hM : Expanded (chainG n) (canon (chainG n)) := by
    intro A ps hA hps
    obtain ⟨i, hi, rfl⟩ := mem_order.1 hA
    rw [canon_eq hps (expands_words hi hps)]
    exact expands_words hi hps
  have hgr : Grounded (chainG n) := by
    rintro A ps qs hA hps h ⟨q, hq, hh⟩
    obtain ⟨i, hi, rfl⟩ := mem_order.1 hA
    rw [h.unique (expands_words hi hps)] at hq
    rw [words_head i q hq] at hh
    have := nm_chars (i := i) (c := 'x') (by rw [← Option.some.inj hh]; simp)
    exact absurd this (by decide)
  have hne : NoEmpty (chainG n) := fun A k h => (hrule A k [] h).1 rfl
  obtain ⟨N, hN⟩ := run_fuel hw hnd hfull hfresh hgr hM
  rcases run hw hnd hfull hfresh hgr N with h | ⟨out, h, -, hs⟩
  · exact absurd h (hN N (Nat.le_refl _))
  refine ⟨chainG n, hw, hnd, hfull, hfresh, hgr, hne, ?_, by simp [chainG], ?_, fun A k p h => (hrule A k p h).2.1,
    ?_, out, _, Out.returns_of (removeLeftRecursion_mono _) h, hs, ?_⟩
  · have key : ∀ A B, Plus (chainG n).LeftStep A B → ∃ i, A = nm i ∧ (B = ['x'] ∨ ∃ j < i, B = nm j) := by
      have one : ∀ A B, (chainG n).LeftStep A B → ∃ i, A = nm i ∧ (B = ['x'] ∨ ∃ j < i, B = nm j) := by
        rintro A B ⟨k, pre, post, ⟨ps, h1, h2⟩, h3⟩
        have := nil_of_noempty hne h3 rfl
        subst this
        have hp := List.mem_of_getElem? h2
        obtain ⟨i, -, rfl, ⟨rfl, -⟩ | ⟨j, rfl, rfl⟩⟩ := chain_rule h1
        · simp at hp
          exact ⟨i, rfl, .inl hp.1⟩
        · simp at hp
          refine ⟨j + 1, rfl, .inr ⟨j, by omega, ?_⟩⟩
          rcases hp with h | h <;> exact h.1
      intro A B h
      induction h with
      | one h => exact one _ _ h
      | @step a b c h _ ih =>
        obtain ⟨i, hi, h⟩ := one _ _ h
        obtain ⟨i', hi', h'⟩ := ih
        refine ⟨i, hi, ?_⟩
        rcases h' with h' | ⟨j, hj, h'⟩
        · exact .inl h'
        · right
          rcases h with h | ⟨l, hl, h⟩
          · exact absurd (nm_chars (i := i') (c := 'x') (by rw [← hi', h]; simp)) (by decide)
          · have := nm_inj (h.symm.trans hi')
            exact ⟨j, by omega, h'⟩
    rintro ⟨A, h⟩
    obtain ⟨i, rfl, h | ⟨j, hj, h⟩⟩ := key _ _ h
    · exact absurd (nm_chars (i := i) (c := 'x') (by rw [h]; simp)) (by decide)
    · have := nm_inj h
      omega
  · have : ∀ k, k ≤ n + 1 → (((List.range k).map nm).map fun A => (((chainG n).prods A).getD []).length).sum = 2 * k - 1 := by
      intro k hk
      induction k with
      | zero => rfl
      | succ k ih =>
        rw [List.range_succ, List.map_append, List.map_append, List.sum_append, ih (by omega)]
        cases k with
        | zero => simp [prods_zero]
        | succ k => simp [prods_succ (show k + 1 ≤ n by omega)]; omega
    have := this (n + 1) (Nat.le_refl _)
    unfold numProds
    show (((List.range (n + 1)).map nm).map _).sum = _
    omega
  · intro A rs h
    obtain ⟨i, -, -, ⟨rfl, -⟩ | ⟨j, -, rfl⟩⟩ := chain_rule h <;> simp
  · have hmem : nm n ∈ (chainG n).order := mem_order.2 ⟨n, Nat.le_refl _, rfl⟩
    obtain ⟨ps, hps⟩ := Option.isSome_iff_exists.1 ((hw (nm n)).2 hmem)
    have hc : canon (chainG n) (nm n) = words n := canon_eq hps (expands_words (Nat.le_refl n) hps)
    have hnd : ¬ Direct (canon (chainG n)) (nm n) := by
      rintro ⟨q, hq, hh⟩
      rw [hc] at hq
      rw [words_head n q hq] at hh
      exact absurd (nm_chars (i := n) (c := 'x') (by rw [← Option.some.inj hh]; simp)) (by decide)
    have hp : (removed (chainG n).order (canon (chainG n))).prods (nm n) = some (words n) := by
      rw [removed_mem hmem, if_neg hnd, hc]
    have hin : nm n ∈ (removed (chainG n).order (canon (chainG n))).order :=
      (removed_wf (nm n)).1 (by rw [hp]; rfl)
    have : (((removed (chainG n).order (canon (chainG n))).prods (nm n)).getD []).length ≤
        numProds (removed (chainG n).order (canon (chainG n))) :=
      le_sum (List.mem_map.2 ⟨nm n, hin, rfl⟩)
    rw [hp] at this
    simpa [words_length] using this

/-- The hypotheses of the bound are met by these grammars, with `R = 2`. -/
example (n : Nat) : ∃ g out G, Out.Returns (removeLeftRecursion g) out ∧ Shows out G ∧ numProds g = 2 * n + 1 ∧
    numProds G ≤ (n + 1) * (2 ^ (n + 1) + 1) := by
  obtain ⟨g, h1, h2, h3, h4, h5, h6, h7, h8, h9, h10, h11, out, G, hr, hs, hG⟩ := C98_refuted n
  obtain ⟨G', hs', h, -⟩ := C98_bound_partial h1 h2 h3 h4 h5 h6 h11 hr
  rw [h8] at h
  exact ⟨g, out, G', hr, hs', h9, h⟩

end Verif.Props.RemoveLRSize
