import Verif.Proofs.ScalcRun
import Verif.Spec.Settled
/- How programs of the stack calculator can be read: the productions for words of the grammar. -/
namespace Verif.Scalc
open Verif Verif.Spec Verif.Spec.Scalc Verif.Tree

/-! ### Parentheses -/

/-- How deep in parentheses. -/
def ht : List Kind → Int
  | [] => 0
  | .opening :: w => 1 + ht w
  | .closing :: w => -1 + ht w
  | _ :: w => ht w

theorem ht_append (a b : List Kind) : ht (a ++ b) = ht a + ht b := by
  induction a with
  | nil => simp [ht]
  | cons k a ih => cases k <;> simp only [List.cons_append, ht] <;> omega

structure Bal (w : List Kind) : Prop where
  all : ht w = 0
  pre : ∀ p s, w = p ++ s → 0 ≤ ht p

theorem bal_nil : Bal [] := ⟨rfl, fun p s e => by
  obtain ⟨rfl, -⟩ := List.append_eq_nil_iff.1 e.symm
  simp [ht]⟩

theorem bal_one {k : Kind} (h : ht [k] = 0) : Bal [k] := ⟨h, fun p s e => by
  cases p with
  | nil => simp [ht]
  | cons x p =>
    simp only [List.cons_append, List.cons.injEq] at e
    obtain ⟨rfl, e⟩ := e
    obtain ⟨rfl, -⟩ := List.append_eq_nil_iff.1 e.symm
    omega⟩

theorem Bal.append {a b : List Kind} (ha : Bal a) (hb : Bal b) : Bal (a ++ b) := by
  refine ⟨by rw [ht_append, ha.all, hb.all]; rfl, fun p s e => ?_⟩
  rcases List.append_eq_append_iff.1 e with ⟨x, rfl, h⟩ | ⟨x, h, rfl⟩
  · rw [ht_append]
    have := hb.pre x s h
    have := ha.all
    omega
  · exact ha.pre p x h

/-- Inside parentheses. -/
theorem Bal.inside {u : List Kind} (h : Bal u) {p s : List Kind} (hp : p ≠ []) (hs : s ≠ []) (e : .opening :: (u ++ [.closing]) = p ++ s) : 1 ≤ ht p := by
  cases p with
  | nil => exact absurd rfl hp
  | cons x p =>
    simp only [List.cons_append, List.cons.injEq] at e
    obtain ⟨rfl, e⟩ := e
    simp only [ht]
    rcases List.append_eq_append_iff.1 e with ⟨x, rfl, h1⟩ | ⟨x, h1, rfl⟩
    · cases x with
      | nil =>
        have := h.all
        simp only [List.append_nil]
        omega
      | cons y x =>
        simp only [List.cons_append, List.cons.injEq] at h1
        exact absurd (List.append_eq_nil_iff.1 h1.2.symm).2 hs
    · have := h.pre p x h1
      omega

theorem Bal.wrap {u : List Kind} (h : Bal u) : Bal (.opening :: (u ++ [.closing])) := by
  refine ⟨by simp only [ht, ht_append, h.all]; rfl, fun p s e => ?_⟩
  by_cases hp : p = []
  · rw [hp]; simp [ht]
  by_cases hs : s = []
  · subst hs
    rw [List.append_nil] at e
    subst e
    simp only [ht, ht_append, h.all]
    decide
  · have := h.inside hp hs e
    omega

theorem is_bal {q : Part} {w : List Kind} (h : Is q w) : Bal w := by
  induction h with
  | none => exact bal_nil
  | push _ _ iha ihb => exact iha.append ihb
  | paren _ _ _ iha ihb ihc =>
    have := iha.append (ihb.wrap.append ihc)
    simpa using this
  | manip _ _ iha ihb => exact iha.append ihb
  | int => exact bal_one rfl
  | dec => exact (bal_one (k := .int) rfl).append (bal_one (k := .dec) rfl)
  | un _ _ iha ihb => exact iha.append ihb
  | bin _ _ _ iha ihb ihc => exact iha.append (ihb.append ihc)
  | fold _ _ iha ihb => exact iha.append ihb
  | cond _ _ _ iha ihb ihc => exact iha.append (ihb.append (ihc.append (bal_one rfl)))
  | @op q k h =>
    simp only [operators, List.mem_cons, Prod.mk.injEq, List.not_mem_nil, or_false] at h
    rcases h with ⟨-, rfl⟩ | ⟨-, rfl⟩ | ⟨-, rfl⟩ | ⟨-, rfl⟩ <;> exact bal_one rfl
  | choose _ _ _ _ iha ihb ihc => exact iha.append (ihb.append (ihc.append (bal_one rfl)))

/-! ### Words -/

theorem is_ne {q : Part} {w : List Kind} (h : Is q w) : q ≠ .stack → w ≠ [] := by
  induction h with
  | none => exact fun h => absurd rfl h
  | push => exact fun h => absurd rfl h
  | paren => exact fun h => absurd rfl h
  | manip => exact fun h => absurd rfl h
  | int | dec | op | cond | choose => intro _; simp
  | un _ _ iha _ => intro h; simp [iha h]
  | bin _ _ _ iha => intro h; simp [iha h]
  | fold _ _ _ ihb => intro _; simp [ihb (by simp)]

theorem op_end {q : Part} {k : Kind} {v : List Kind} (hq : (q, k) ∈ operators) (h : Is q v) : v = [k] ∨ ∃ a, v = a ++ [.choice] := by
  cases h with
  | none | push | paren | manip | int | dec | un | bin | fold | cond => simp [operators] at hq
  | @op _ k' h =>
    left
    simp only [operators, List.mem_cons, Prod.mk.injEq, List.not_mem_nil, or_false] at h hq
    rcases h with ⟨rfl, rfl⟩ | ⟨rfl, rfl⟩ | ⟨rfl, rfl⟩ | ⟨rfl, rfl⟩ <;> rcases hq with ⟨h, rfl⟩ | ⟨h, rfl⟩ | ⟨h, rfl⟩ | ⟨h, rfl⟩ <;>
      first | rfl | cases h
  | @choose _ _ a b c => exact .inr ⟨a ++ (b ++ c), by simp⟩

theorem op_one {q : Part} {k : Kind} {v : List Kind} (hq : (q, k) ∈ operators) (h : Is q v) (hc : .choice ∉ v) : v = [k] := by
  rcases op_end hq h with h | ⟨a, rfl⟩
  · exact h
  · simp at hc

/-- The last token of a value. -/
theorem value_end {w : List Kind} (h : Is .value w) : ∃ a k, w = a ++ [k] ∧ k ∈ [Kind.int, .dec, .uop, .bop, .sop, .choice] := by
  have op : ∀ {q k v a}, (q, k) ∈ operators → k ∈ [Kind.uop, .bop, .sop] → Is q v → ∃ x k, a ++ v = x ++ [k] ∧ k ∈ [Kind.int, .dec, .uop, .bop, .sop, .choice] := by
    intro q k v a hq hk h
    rcases op_end hq h with rfl | ⟨b, rfl⟩
    · exact ⟨a, k, rfl, by simp at hk ⊢; rcases hk with rfl | rfl | rfl <;> simp⟩
    · exact ⟨a ++ b, .choice, by simp, by simp⟩
  cases h with
  | int => exact ⟨[], .int, rfl, by simp⟩
  | dec => exact ⟨[.int], .dec, rfl, by simp⟩
  | un _ h => exact op (k := .uop) (by simp [operators]) (by simp) h
  | @bin a b c _ _ h =>
    rw [← List.append_assoc]
    exact op (k := .bop) (by simp [operators]) (by simp) h
  | fold _ h => exact op (k := .sop) (by simp [operators]) (by simp) h
  | @cond a b c => exact ⟨a ++ (b ++ c), .choice, by simp, by simp⟩
  | op h => simp [operators] at h
  | choose h => simp [operators] at h

theorem plain_bal {m f : Bool} {w : List Kind} (h : Plain m f w) : Bal w := by
  induction h with
  | @vals w h =>
    have : ∀ w : List Kind, (∀ k ∈ w, k = .int ∨ k = .dec ∨ k = .uop ∨ k = .bop) → ht w = 0 := by
      intro w h
      induction w with
      | nil => rfl
      | cons k w ih =>
        have ih := ih fun k hk => h k (by simp [hk])
        rcases h k (by simp) with rfl | rfl | rfl | rfl <;> exact ih
    exact ⟨this w h, fun p s e => by rw [this p fun k hk => h k (by simp [e, hk])]⟩
  | paren _ ih => exact ih.wrap
  | fold _ ih => exact ih.append (bal_one rfl)
  | manip _ ih => exact ih.append (bal_one rfl)

theorem plain_choice {m f : Bool} {w : List Kind} (h : Plain m f w) : .choice ∉ w := by
  induction h with
  | @vals w h => intro hm; have := h _ hm; simp at this
  | paren _ ih => simpa using ih
  | fold _ ih => simpa using ih
  | manip _ ih => simpa using ih

/-- Operators on the stack are inside parentheses. -/
theorem plain_deep {m f : Bool} {w : List Kind} (h : Plain m f w) : f = true → ∀ x s, w = x ++ .sop :: s → 1 ≤ ht x := by
  induction h with
  | @vals w h =>
    intro _ x s e
    have := h .sop (by simp [e])
    simp at this
  | paren h _ =>
    intro _ x s e
    refine (plain_bal h).inside ?_ (by simp) e
    rintro rfl
    simp at e
  | fold => intro h; cases h
  | @manip f w h ih =>
    intro hf x s e
    rcases List.append_eq_append_iff.1 e with ⟨y, rfl, h1⟩ | ⟨y, h1, h2⟩
    · cases y with
      | nil => simp at h1
      | cons z y => simp at h1
    · cases y with
      | nil => simp at h2
      | cons z y =>
        simp only [List.cons_append, List.cons.injEq] at h2
        exact ih hf x y (by rw [h1, h2.1])

/-! ### Readings -/

theorem SOK.inv' {G} (h : SOK G) {A : Str} {k : Nat} {p : List Str} (hr : G.Rule A k p) : ∃ ps, (A, ps) ∈ sTable ∧ ps[k]? = some p := by
  obtain ⟨ps, h1, h2⟩ := hr
  have := (h.wf A).1 (by rw [h1]; rfl)
  rw [h.order] at this
  obtain ⟨⟨A', ps'⟩, hm, rfl⟩ := List.mem_map.1 this
  have h3 := h.prods _ hm
  simp only at h3 h1
  rw [h1] at h3
  obtain rfl := Option.some.inj h3
  exact ⟨ps, hm, h2⟩

/-- The words of a reading are words of tokens. -/
theorem words_for {G : Grammar Str} (hG : SOK G) : ∀ {a : List (Str × List Str)} {w : List Kind}, (∀ x ∈ a, G.Derives [x.1] x.2) →
    (a.map (·.2)).flatten = w.map kn →
    ∃ us : List (Str × List Kind), a = us.map (fun x => (x.1, x.2.map kn)) ∧ (∀ x ∈ us, For x.1 x.2) ∧ (us.map (·.2)).flatten = w
  | [], w, _, hw => ⟨[], rfl, by simp, by simpa using hw.symm⟩
  | x :: a, w, h, hw => by
    simp only [List.map_cons, List.flatten_cons] at hw
    obtain ⟨u, v, rfl, h1, h2⟩ := List.map_eq_append_iff.1 hw.symm
    obtain ⟨us, rfl, h3, h4⟩ := words_for hG (a := a) (fun y hy => h y (by simp [hy])) h2.symm
    have hx := fors_of_derives hG (h x (by simp)) u h1.symm
    have hx : For x.1 u := by
      generalize e : [x.1] = ss at hx
      cases hx with
      | nil => cases e
      | cons h5 h6 =>
        cases e
        rw [fors_nil h6, List.append_nil]
        exact h5
    refine ⟨(x.1, u) :: us, ?_, ?_, by simp [h4]⟩
    · simp only [List.map_cons, h1]
    · intro y hy
      rcases List.mem_cons.1 hy with rfl | hy
      · exact hx
      · exact h3 y hy

theorem fst_two {β γ : Type} {l : List (β × γ)} {x y : β} (h : l.map (·.1) = [x, y]) : ∃ u v, l = [(x, u), (y, v)] := by
  match l, h with
  | [(_, u), (_, v)], h =>
    simp only [List.map_cons, List.map_nil, List.cons.injEq, and_true] at h
    obtain ⟨rfl, rfl⟩ := h
    exact ⟨u, v, rfl⟩

theorem fst_three {β γ : Type} {l : List (β × γ)} {x y z : β} (h : l.map (·.1) = [x, y, z]) : ∃ u v w, l = [(x, u), (y, v), (z, w)] := by
  match l, h with
  | [(_, u), (_, v), (_, w)], h =>
    simp only [List.map_cons, List.map_nil, List.cons.injEq, and_true] at h
    obtain ⟨rfl, rfl, rfl⟩ := h
    exact ⟨u, v, w, rfl⟩

theorem reading_words {G : Grammar Str} (hG : SOK G) {A : Str} {k a} {w : List Kind} (h : G.Reading A k a (w.map kn)) :
    ∃ ps, (A, ps) ∈ sTable ∧ ∃ us : List (Str × List Kind), ps[k]? = some (us.map (·.1)) ∧ a = us.map (fun x => (x.1, x.2.map kn)) ∧
      (∀ x ∈ us, For x.1 x.2) ∧ (us.map (·.2)).flatten = w := by
  obtain ⟨us, rfl, h1, h2⟩ := words_for hG h.derives h.word
  obtain ⟨ps, h3, h4⟩ := hG.inv' h.rule
  exact ⟨ps, h3, us, by rw [h4]; simp [Function.comp_def], rfl, h1, h2⟩

abbrev rd (A : Str) (u : List Kind) : Str × List Str := (A, u.map kn)

/-- Ways of reading a stack. -/
theorem reading_stack {G : Grammar Str} (hG : SOK G) {k a} {w : List Kind} (h : G.Reading (pn .stack) k a (w.map kn)) :
    (k = 0 ∧ ∃ u v, w = u ++ v ∧ Is .stack u ∧ Is .manip v ∧ a = [rd (pn .stack) u, rd (pn .manip) v]) ∨
    (k = 1 ∧ ∃ u v, w = u ++ v ∧ Is .value u ∧ Is .stack v ∧ a = [rd (pn .value) u, rd (pn .stack) v]) ∨
    (k = 2 ∧ ∃ u b v, w = u ++ ((.opening :: (b ++ [.closing])) ++ v) ∧ Is .stack u ∧ Is .stack b ∧ Is .stack v ∧
      a = [rd (pn .stack) u, rd "P".toList (.opening :: (b ++ [.closing])), rd (pn .stack) v]) ∨
    (k = 3 ∧ w = [] ∧ a = []) := by
  obtain ⟨ps, h1, us, h2, rfl, h3, rfl⟩ := reading_words hG h
  have hps : ps = [[pn .stack, pn .manip], [pn .value, pn .stack], [pn .stack, "P".toList, pn .stack], []] := by
    have key : ∀ y ∈ sTable, y.1 = pn .stack → y.2 = [[pn .stack, pn .manip], [pn .value, pn .stack], [pn .stack, "P".toList, pn .stack], []] := by decide
    exact key _ h1 rfl
  subst hps
  match k, h2 with
  | 0, h2 =>
    obtain ⟨u, v, rfl⟩ := fst_two (Option.some.inj h2).symm
    exact .inl ⟨rfl, u, v, by simp, (h3 _ (.head _)).part, (h3 _ (.tail _ (.head _))).part, rfl⟩
  | 1, h2 =>
    obtain ⟨u, v, rfl⟩ := fst_two (Option.some.inj h2).symm
    exact .inr (.inl ⟨rfl, u, v, by simp, (h3 _ (.head _)).part, (h3 _ (.tail _ (.head _))).part, rfl⟩)
  | 2, h2 =>
    obtain ⟨u, p, v, rfl⟩ := fst_three (Option.some.inj h2).symm
    obtain ⟨b, hb, hp⟩ := (h3 ("P".toList, p) (.tail _ (.head _))).paren
    have hp : p = _ := hp
    subst hp
    exact .inr (.inr (.inl ⟨rfl, u, b, v, by simp, (h3 _ (.head _)).part, hb, (h3 _ (.tail _ (.tail _ (.head _)))).part, rfl⟩))
  | 3, h2 =>
    have : us = [] := List.map_eq_nil_iff.1 (Option.some.inj h2).symm
    subst this
    exact .inr (.inr (.inr ⟨rfl, rfl, rfl⟩))
  | k + 4, h2 => simp at h2

/-- Ways of reading a value. -/
theorem reading_value {G : Grammar Str} (hG : SOK G) {k a} {w : List Kind} (h : G.Reading (pn .value) k a (w.map kn)) (hc : .choice ∉ w) :
    (k = 0 ∧ ∃ u, w = u ++ [.sop] ∧ Is .stack u ∧ a = [rd (pn .stack) u, rd (pn .fold) [.sop]]) ∨
    (0 < k ∧ ∃ u x, w = u ++ [x] ∧ x ∈ [Kind.int, .dec, .uop, .bop]) := by
  obtain ⟨ps, h1, us, h2, rfl, h3, rfl⟩ := reading_words hG h
  have hps : ps = [[pn .stack, pn .fold], [pn .value, pn .value, pn .value, kn .choice], [pn .value, pn .unary], [pn .value, pn .value, pn .binary], ["Number".toList]] := by
    have key : ∀ y ∈ sTable, y.1 = pn .value → y.2 = [[pn .stack, pn .fold], [pn .value, pn .value, pn .value, kn .choice], [pn .value, pn .unary],
      [pn .value, pn .value, pn .binary], ["Number".toList]] := by decide
    exact key _ h1 rfl
  subst hps
  match k, h2 with
  | 0, h2 =>
    obtain ⟨u, v, rfl⟩ := fst_two (Option.some.inj h2).symm
    have hv := op_one (q := .fold) (k := .sop) (by simp [operators]) (h3 (pn .fold, v) (.tail _ (.head _))).part fun h => hc (by simp [h])
    subst hv
    exact .inl ⟨rfl, u, by simp, (h3 _ (.head _)).part, rfl⟩
  | 1, h2 =>
    exfalso
    have : kn .choice ∈ us.map (·.1) := by
      rw [← Option.some.inj h2]; simp
    obtain ⟨⟨y, v⟩, hx, e⟩ := List.mem_map.1 this
    have e : y = kn .choice := e
    subst e
    have hy : For (kn .choice) v := h3 _ hx
    obtain rfl := hy.tok
    exact hc (List.mem_flatten.2 ⟨_, List.mem_map.2 ⟨_, hx, rfl⟩, .head _⟩)
  | 2, h2 =>
    obtain ⟨u, v, rfl⟩ := fst_two (Option.some.inj h2).symm
    have hv := op_one (q := .unary) (k := .uop) (by simp [operators]) (h3 (pn .unary, v) (.tail _ (.head _))).part fun h => hc (by simp [h])
    subst hv
    exact .inr ⟨by omega, u, .uop, by simp, by simp⟩
  | 3, h2 =>
    obtain ⟨u, u', v, rfl⟩ := fst_three (Option.some.inj h2).symm
    have hv := op_one (q := .binary) (k := .bop) (by simp [operators]) (h3 (pn .binary, v) (.tail _ (.tail _ (.head _)))).part fun h => hc (by simp [h])
    subst hv
    exact .inr ⟨by omega, u ++ u', .bop, by simp, by simp⟩
  | 4, h2 =>
    have e := (Option.some.inj h2).symm
    match us, e with
    | [(_, v)], e =>
      simp only [List.map_cons, List.map_nil, List.cons.injEq, and_true] at e
      subst e
      have : For "Number".toList v := h3 _ (.head _)
      rcases this.number with rfl | rfl
      · exact .inr ⟨by omega, [], .int, by simp, by simp⟩
      · exact .inr ⟨by omega, [.int], .dec, by simp, by simp⟩
  | k + 5, h2 => simp at h2

theorem rule_at {G : Grammar Str} (hG : SOK G) {A : Str} {k : Nat} {p : List Str} (h : (sTable.any fun x => decide (x.1 = A) && decide (x.2[k]? = some p)) = true) :
    G.Rule A k p := by
  obtain ⟨⟨A', ps⟩, hm, h2⟩ := List.any_eq_true.1 h
  simp only [Bool.and_eq_true, decide_eq_true_eq] at h2
  obtain ⟨rfl, h2⟩ := h2
  exact ⟨ps, hG.prods _ hm, h2⟩

theorem derives_paren {G : Grammar Str} (hG : SOK G) {b : List Kind} (h : Is .stack b) : G.Derives ["P".toList] ((Kind.opening :: (b ++ [.closing])).map kn) := by
  have h1 := derives_append (derives_is hG h) (Grammar.Derives.term (hG.term .closing) .nil)
  have := derives_one (rule_at hG (A := "P".toList) (k := 0) (p := [kn .opening, pn .stack, kn .closing]) (by decide)) (Grammar.Derives.term (hG.term .opening) h1)
  simpa using this

/-! ### Settled -/

/-- A manipulation at the end. -/
theorem settled_manip {G : Grammar Str} (hG : SOK G) {w : List Kind} (hw : Is .stack w) (hc : .choice ∉ w) :
    G.Settled (pn .stack) ((w ++ [Kind.smp]).map kn) 0 [rd (pn .stack) w, rd (pn .manip) [.smp]] := by
  refine ⟨⟨rule_at hG (p := [pn .stack, pn .manip]) (by decide), ?_, by simp⟩, 0, fun k' b hb hne => ?_⟩
  · intro x hx
    simp only [List.mem_cons, List.not_mem_nil, or_false] at hx
    rcases hx with rfl | rfl
    · exact derives_is hG hw
    · exact derives_is hG (q := .manip) (.op (by simp [operators]))
  · rcases reading_stack hG hb with ⟨rfl, u, v, e, -, hv, rfl⟩ | ⟨rfl, -⟩ | ⟨rfl, -⟩ | ⟨rfl, -⟩
    · exfalso
      have hv := op_one (k := .smp) (by simp [operators]) hv (fun h => by
        have : Kind.choice ∈ w ++ [.smp] := by rw [e]; simp [h]
        simp [hc] at this)
      subst hv
      have := List.append_inj_left' e rfl
      subst this
      exact hne rfl
    all_goals exact .inl (by omega)

/-- An operator on the stack at the end. -/
theorem settled_fold {G : Grammar Str} (hG : SOK G) {w : List Kind} (hw : Is .stack w) (hc : .choice ∉ w)
    (hd : ∀ x s, w = x ++ .sop :: s → 1 ≤ ht x) :
    G.Settled (pn .stack) ((w ++ [Kind.sop]).map kn) 1 [rd (pn .value) (w ++ [.sop]), rd (pn .stack) []] := by
  have hv : Is .value (w ++ [.sop]) := .fold hw (.op (by simp [operators]))
  have hcc : Kind.choice ∉ w ++ [.sop] := by simp [hc]
  refine ⟨⟨rule_at hG (p := [pn .value, pn .stack]) (by decide), ?_, by simp⟩, 1, fun k' b hb hne => ?_⟩
  · intro x hx
    simp only [List.mem_cons, List.not_mem_nil, or_false] at hx
    rcases hx with rfl | rfl
    · exact derives_is hG hv
    · exact derives_is hG (q := .stack) .none
  · rcases reading_stack hG hb with ⟨rfl, u, v, e, -, h, rfl⟩ | ⟨rfl, u, v, e, hu, hs, rfl⟩ | ⟨rfl, -⟩ | ⟨rfl, -⟩
    · exfalso
      have hv := op_one (k := .smp) (by simp [operators]) h (fun h => hcc (by rw [e]; simp [h]))
      subst hv
      have := List.append_inj_right' e rfl
      simp at this
    · right
      refine ⟨rfl, .inl ⟨fun e' => ?_, fun ht => ?_, fun k a k' b h1 h2 => .inl ?_⟩⟩
      · have e' : w ++ [Kind.sop] = u := by
          refine (List.map_inj_right fun a b => kn_inj).1 e'
        subst e'
        have : v = [] := by simpa using e
        subst this
        exact hne rfl
      · have h0 : G.prods (pn .value) = some _ := hG.prods _ (.tail _ (.head _))
        have ht : G.prods (pn .value) = none := ht
        rw [ht] at h0
        cases h0
      · rcases reading_value hG h1 hcc with ⟨rfl, -⟩ | ⟨-, y, x, e1, hx⟩
        · rcases reading_value hG h2 (fun h => hcc (by rw [e]; simp [h])) with ⟨rfl, y, rfl, hy, -⟩ | ⟨h, -⟩
          · exfalso
            rcases list_cases v with rfl | ⟨v, c, rfl⟩
            · rw [List.append_nil] at e
              apply hne
              rw [e]
            · have : w = y ++ .sop :: v := by
                rw [← List.append_assoc] at e
                have := List.append_inj_left' e rfl
                rw [this]; simp
              have := hd _ _ this
              have := (is_bal hy).all
              omega
          · exact h
        · have := List.append_inj_right' e1 rfl
          simp only [List.cons.injEq, and_true] at this
          subst this
          simp at hx
    all_goals exact .inl (by omega)

/-- The value that ends with it. -/
theorem settled_value {G : Grammar Str} (hG : SOK G) {w : List Kind} (hw : Is .stack w) (hc : .choice ∉ w) :
    G.Settled (pn .value) ((w ++ [Kind.sop]).map kn) 0 [rd (pn .stack) w, rd (pn .fold) [.sop]] := by
  refine ⟨⟨rule_at hG (p := [pn .stack, pn .fold]) (by decide), ?_, by simp⟩, 0, fun k' b hb hne => ?_⟩
  · intro x hx
    simp only [List.mem_cons, List.not_mem_nil, or_false] at hx
    rcases hx with rfl | rfl
    · exact derives_is hG hw
    · exact derives_is hG (q := .fold) (.op (by simp [operators]))
  · rcases reading_value hG hb (by simp [hc]) with ⟨rfl, u, e, -, rfl⟩ | ⟨h, -⟩
    · exfalso
      have := List.append_inj_left' e rfl
      subst this
      exact hne rfl
    · exact .inl h

/-- Parentheses around everything. -/
theorem settled_paren {G : Grammar Str} (hG : SOK G) {w : List Kind} (hw : Is .stack w) :
    G.Settled (pn .stack) ((Kind.opening :: (w ++ [.closing])).map kn) 2
      [rd (pn .stack) [], rd "P".toList (.opening :: (w ++ [.closing])), rd (pn .stack) []] := by
  have inside := @Bal.inside _ (is_bal hw)
  have hbal := (is_bal hw).wrap
  refine ⟨⟨rule_at hG (p := [pn .stack, "P".toList, pn .stack]) (by decide), ?_, by simp⟩, 0, fun k' b hb hne => ?_⟩
  · intro x hx
    simp only [List.mem_cons, List.not_mem_nil, or_false] at hx
    rcases hx with rfl | rfl | rfl
    · exact derives_is hG (q := .stack) .none
    · exact derives_paren hG hw
    · exact derives_is hG (q := .stack) .none
  · rcases reading_stack hG hb with ⟨rfl, u, v, e, -, h, rfl⟩ | ⟨rfl, u, v, e, hu, hs, rfl⟩ | ⟨rfl, u, b, v, e, hu, h1, hv, rfl⟩ | ⟨rfl, -⟩
    · exfalso
      have e' : (Kind.opening :: w) ++ [.closing] = u ++ v := e
      rcases op_end (k := .smp) (by simp [operators]) h with rfl | ⟨a, rfl⟩
      · have := List.append_inj_right' e' rfl
        simp at this
      · rw [← List.append_assoc] at e'
        have := List.append_inj_right' e' rfl
        simp at this
    · exfalso
      by_cases hv0 : v = []
      · subst hv0
        obtain ⟨a, k, rfl, hk⟩ := value_end hu
        have e' : (Kind.opening :: w) ++ [.closing] = a ++ [k] := by simpa using e
        have := List.append_inj_right' e' rfl
        simp only [List.cons.injEq, and_true] at this
        subst this
        simp at hk
      · have := inside (is_ne hu (by simp)) hv0 e
        have := (is_bal hu).all
        omega
    · exfalso
      have hu0 : u = [] := by
        apply Classical.byContradiction
        intro h0
        have := inside h0 (by simp) e
        have := (is_bal hu).all
        omega
      subst hu0
      have hv0 : v = [] := by
        apply Classical.byContradiction
        intro h0
        have := inside (by simp) h0 e
        have := (is_bal h1).wrap.all
        omega
      subst hv0
      have : w = b := by simpa using e
      subst this
      exact hne rfl
    · exact .inl (by omega)

/-! ### No cycles -/

def rank (s : Str) : Nat :=
  if s = "Stack".toList then 3 else if s = "E".toList then 2 else if s ∈ sTable.map (·.1) then 1 else 0

theorem cycle_free {G : Grammar Str} (hG : SOK G) : G.CycleFree := by
  have empty : ∀ {ss : List Str}, Fors ss [] → ∀ s ∈ ss, s = "Stack".toList := by
    intro ss h
    generalize e : ([] : List Kind) = w at h
    induction h with
    | nil => simp
    | @cons s ss u v h _ ih =>
      obtain ⟨rfl, rfl⟩ := List.append_eq_nil_iff.1 e.symm
      intro x hx
      rcases List.mem_cons.1 hx with rfl | hx
      · rcases h with ⟨q, rfl, h⟩ | ⟨-, h⟩ | ⟨-, b, -, h⟩ | ⟨k, -, h⟩
        · by_cases hq : q = .stack
          · subst hq; rfl
          · exact absurd rfl (is_ne h hq)
        · simp at h
        · simp at h
        · simp at h
      · exact ih rfl x hx
  have all : ∀ x ∈ sTable, ∀ p ∈ x.2, ∀ i ∈ List.range p.length,
      (∀ s ∈ p.take i, s = "Stack".toList) → (∀ s ∈ p.drop (i + 1), s = "Stack".toList) → ∀ s ∈ p[i]?, rank s < rank x.1 := by decide
  have step : ∀ A B, G.UnitStep A B → rank B < rank A := by
    rintro A B ⟨k, pre, post, hr, h1, h2⟩
    obtain ⟨ps, h3, h4⟩ := hG.inv hr
    exact all _ h3 _ h4 pre.length (by simp) (by simpa using empty (fors_of_derives hG h1 [] rfl))
      (by simpa using empty (fors_of_derives hG h2 [] rfl)) B (by simp)
  have plus : ∀ A B, Grammar.Plus G.UnitStep A B → rank B < rank A := by
    intro A B h
    induction h with
    | one h => exact step _ _ h
    | step h _ ih => exact Nat.lt_trans ih (step _ _ h)
  intro A h
  exact absurd (plus A A h) (Nat.lt_irrefl _)

end Verif.Scalc
