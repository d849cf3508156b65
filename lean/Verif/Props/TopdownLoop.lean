import Verif.Props.Topdown
import Verif.Spec.Calls
/-
When the top-down parser does not return (C93).
-/
namespace Verif.Props.TopdownLoop
open Verif.Spec Verif.Spec.Grammar Verif.Topdown

variable {α V : Type} {g : Grammar α} {ev : V} {inp : List (Lexeme α V)}

/-- Nothing that trying a goal leads to goes on for ever. -/
def Ends (g : Grammar α) (ev : V) (inp : List (Lexeme α V)) (i : Nat) : Goal α → Prop
  | .sym A => Acc (fun y x => Calls g ev inp x y) (A, i)
  | .seq ss => ∀ xs B ys j ts, ss = xs ++ B :: ys → Match g ev inp (.seq xs) i (some (j, ts)) →
      Acc (fun y x => Calls g ev inp x y) (B, j)
  | .alts _ ps => ∀ before xs B ys after j ts, ps = before ++ (xs ++ B :: ys) :: after →
      (∀ q ∈ before, Match g ev inp (.seq q) i none) → Match g ev inp (.seq xs) i (some (j, ts)) →
      Acc (fun y x => Calls g ev inp x y) (B, j)

theorem ends {goal i r} (h : Match g ev inp goal i r) : Ends g ev inp i goal := by
  have cons : ∀ {X ss i m ts}, Match g ev inp (.sym X) i (some (m, ts)) → Ends g ev inp i (.sym X) →
      Ends g ev inp m (.seq ss) → Ends g ev inp i (.seq (X :: ss)) := by
    intro X ss i m ts h h1 h2 xs B ys j ts' e hx
    cases xs with
    | nil =>
      simp only [List.nil_append, List.cons.injEq] at e
      obtain ⟨rfl, rfl⟩ := e
      cases hx
      exact h1
    | cons X' xs =>
      simp only [List.cons_append, List.cons.injEq] at e
      obtain ⟨rfl, e⟩ := e
      cases hx with
      | seq_cons ha hb =>
        cases Match.det h _ ha
        exact h2 xs B ys j _ e hb
  induction h with
  | term_ok ht =>
    refine ⟨_, fun y hy => ?_⟩
    have ht : g.prods _ = none := ht
    generalize hx : (_, _) = x at hy
    cases hy with
    | mk hp => cases hx; rw [ht] at hp; cases hp
  | term_no ht =>
    refine ⟨_, fun y hy => ?_⟩
    have ht : g.prods _ = none := ht
    generalize hx : (_, _) = x at hy
    cases hy with
    | mk hp => cases hx; rw [ht] at hp; cases hp
  | nonterm hp _ ih =>
    refine ⟨_, fun y hy => ?_⟩
    generalize hx : (_, _) = x at hy
    cases hy with
    | mk hp' hb hm =>
      cases hx
      rw [hp] at hp'; cases hp'
      exact ih _ _ _ _ _ _ _ rfl hb hm
  | alts_nil => intro before xs B ys after j ts e; cases before <;> cases e
  | alts_ok h ih =>
    intro before xs B ys after j ts e hb hm
    cases before with
    | nil => cases e; exact ih _ _ _ _ _ rfl hm
    | cons q before => cases e; cases Match.det h _ (hb _ (List.mem_cons_self ..))
  | alts_no h _ ih1 ih2 =>
    intro before xs B ys after j ts e hb hm
    cases before with
    | nil => cases e; exact ih1 _ _ _ _ _ rfl hm
    | cons q before => cases e; exact ih2 _ _ _ _ _ _ _ rfl (fun q hq => hb q (by simp [hq])) hm
  | seq_nil => intro xs B ys j ts e; cases xs <;> cases e
  | seq_no h ih =>
    intro xs B ys j ts e hx
    cases xs with
    | nil => cases e; cases hx; exact ih
    | cons X xs =>
      cases e
      cases hx with
      | seq_cons ha _ => cases Match.det h _ ha
  | seq_rest_no h _ ih1 ih2 => exact cons h ih1 ih2
  | seq_cons h _ ih1 ih2 => exact cons h ih1 ih2

theorem whole_ends {S ps r} (h : Whole g ev inp S ps r) : ∀ before xs B ys after j ts,
    ps = before ++ (xs ++ B :: ys) :: after →
    (∀ q ∈ before, ∃ r, Match g ev inp (.seq q) 0 r ∧ ∀ ks, r ≠ some (inp.length, ks)) →
    Match g ev inp (.seq xs) 0 (some (j, ts)) → Acc (fun y x => Calls g ev inp x y) (B, j) := by
  induction h with
  | nil => intro before xs B ys after j ts e; cases before <;> cases e
  | hit h =>
    intro before xs B ys after j ts e hb hm
    cases before with
    | nil => cases e; exact ends h _ _ _ _ _ rfl hm
    | cons q before =>
      cases e
      obtain ⟨r, hr, hn⟩ := hb _ (List.mem_cons_self ..)
      exact absurd (Match.det h _ hr).symm (hn _)
  | miss h _ _ ih =>
    intro before xs B ys after j ts e hb hm
    cases before with
    | nil => cases e; exact ends h _ _ _ _ _ rfl hm
    | cons q before => cases e; exact ih _ _ _ _ _ _ _ rfl (fun q hq => hb q (by simp [hq])) hm

theorem acc_no_plus {β : Type} {R : β → β → Prop} {x : β} (h : Acc (fun y x => R x y) x) : ¬ Plus R x x := by
  induction h with
  | intro x _ ih =>
    intro hp
    cases hp with
    | one h => exact ih x h (.one h)
    | step h hp => exact ih _ h (hp.trans (.one h))

theorem acc_plus {β : Type} {R : β → β → Prop} {x y : β} (h : Acc (fun y x => R x y) x) (hp : Plus R x y) :
    Acc (fun y x => R x y) y := by
  induction hp with
  | one h1 => exact h.inv h1
  | step h1 _ ih => exact ih (h.inv h1)

/-- Without cycles every chain within a finite set ends. -/
theorem acc_of_finite {β : Type} [DecidableEq β] {R : β → β → Prop} (F : Finset β)
    (hc : ∀ x ∈ F, ∀ y, R x y → y ∈ F) (hn : ∀ x ∈ F, ¬ Plus R x x) :
    ∀ x ∈ F, Acc (fun y x => R x y) x := by
  classical
  suffices ∀ n x, x ∈ F → (F.filter fun y => Plus R x y).card < n → Acc (fun y x => R x y) x from
    fun x hx => this _ x hx (Nat.lt_succ_self _)
  intro n
  induction n with
  | zero => intro x _ h; omega
  | succ n ih =>
    intro x hx h
    refine ⟨_, fun y hy => ih y (hc x hx y hy) ?_⟩
    refine Nat.lt_of_lt_of_le (Finset.card_lt_card ?_) (Nat.le_of_lt_succ h)
    rw [Finset.ssubset_iff_of_subset]
    · exact ⟨y, by simp [hc x hx y hy, Plus.one hy], by simp [hn y (hc x hx y hy)]⟩
    · intro z hz
      simp only [Finset.mem_filter] at hz ⊢
      exact ⟨hz.1, .step hy hz.2⟩

/-- A sequence has a result if everything tried in it has. -/
theorem seq_result : ∀ (suf pre : List α) i j ts, Match g ev inp (.seq pre) i (some (j, ts)) →
    (∀ xs B ys j ts, pre ++ suf = xs ++ B :: ys → Match g ev inp (.seq xs) i (some (j, ts)) →
      ∃ r, Match g ev inp (.sym B) j r) → ∃ r, Match g ev inp (.seq suf) j r := by
  have snoc : ∀ (pre : List α) i j ts X m us, Match g ev inp (.seq pre) i (some (j, ts)) →
      Match g ev inp (.sym X) j (some (m, us)) → ∃ vs, Match g ev inp (.seq (pre ++ [X])) i (some (m, vs)) := by
    intro pre
    induction pre with
    | nil => intro i j ts X m us h hX; cases h; exact ⟨_, .seq_cons hX .seq_nil⟩
    | cons Y pre ih =>
      intro i j ts X m us h hX
      cases h with
      | seq_cons ha hb =>
        obtain ⟨vs, hv⟩ := ih _ _ _ _ _ _ hb hX
        exact ⟨_, .seq_cons ha hv⟩
  intro suf
  induction suf with
  | nil => intro pre i j ts _ _; exact ⟨_, .seq_nil⟩
  | cons X suf ih =>
    intro pre i j ts hp H
    obtain ⟨r, hr⟩ := H pre X suf j ts rfl hp
    cases r with
    | none => exact ⟨_, .seq_no hr⟩
    | some a =>
      obtain ⟨m, us⟩ := a
      obtain ⟨vs, hv⟩ := snoc _ _ _ _ _ _ _ hp hr
      obtain ⟨r2, hr2⟩ := ih (pre ++ [X]) i m vs hv (by simpa using H)
      cases r2 with
      | none => exact ⟨_, .seq_rest_no hr hr2⟩
      | some b => exact ⟨_, .seq_cons hr hr2⟩

theorem alts_result {A : α} {i} : ∀ (ps : List (List α)) (before : List (List α)),
    (∀ q ∈ before, Match g ev inp (.seq q) i none) →
    (∀ bs xs B ys after j ts, before ++ ps = bs ++ (xs ++ B :: ys) :: after →
      (∀ q ∈ bs, Match g ev inp (.seq q) i none) → Match g ev inp (.seq xs) i (some (j, ts)) →
      ∃ r, Match g ev inp (.sym B) j r) → ∃ r, Match g ev inp (.alts A ps) i r := by
  intro ps
  induction ps with
  | nil => intro before _ _; exact ⟨_, .alts_nil⟩
  | cons p ps ih =>
    intro before hb H
    obtain ⟨r, hr⟩ := seq_result (g := g) (ev := ev) (inp := inp) p [] i i [] .seq_nil fun xs B ys j ts e hm => by
      simp only [List.nil_append] at e
      subst e
      exact H before xs B ys ps j ts rfl hb hm
    cases r with
    | some a => exact ⟨_, .alts_ok hr⟩
    | none =>
      obtain ⟨r', hr'⟩ := ih (before ++ [p]) (by
        intro q hq
        rcases List.mem_append.1 hq with hq | hq
        · exact hb q hq
        · simp at hq; subst hq; exact hr) (by simpa using H)
      exact ⟨_, .alts_no hr hr'⟩

theorem whole_result {S : α} : ∀ (ps : List (List α)) (before : List (List α)),
    (∀ q ∈ before, ∃ r, Match g ev inp (.seq q) 0 r ∧ ∀ ks, r ≠ some (inp.length, ks)) →
    (∀ bs xs B ys after j ts, before ++ ps = bs ++ (xs ++ B :: ys) :: after →
      (∀ q ∈ bs, ∃ r, Match g ev inp (.seq q) 0 r ∧ ∀ ks, r ≠ some (inp.length, ks)) →
      Match g ev inp (.seq xs) 0 (some (j, ts)) →
      ∃ r, Match g ev inp (.sym B) j r) → ∃ r, Whole g ev inp S ps r := by
  intro ps
  induction ps with
  | nil => intro before _ _; exact ⟨_, .nil⟩
  | cons p ps ih =>
    intro before hb H
    obtain ⟨r, hr⟩ := seq_result (g := g) (ev := ev) (inp := inp) p [] 0 0 [] .seq_nil fun xs B ys j ts e hm => by
      simp only [List.nil_append] at e
      subst e
      exact H before xs B ys ps j ts rfl hb hm
    by_cases hk : ∃ ks, r = some (inp.length, ks)
    · obtain ⟨ks, rfl⟩ := hk; exact ⟨_, .hit hr⟩
    · have hk : ∀ ks, r ≠ some (inp.length, ks) := fun ks e => hk ⟨ks, e⟩
      obtain ⟨r', hr'⟩ := ih (before ++ [p]) (by
        intro q hq
        rcases List.mem_append.1 hq with hq | hq
        · exact hb q hq
        · simp at hq; subst hq; exact ⟨r, hr, hk⟩) (by simpa using H)
      exact ⟨_, .miss hr hk hr'⟩

theorem sym_result {x : α × Nat} (h : Acc (fun y x => Calls g ev inp x y) x) :
    ∃ r, Match g ev inp (.sym x.1) x.2 r := by
  induction h with
  | intro x _ ih =>
    obtain ⟨A, i⟩ := x
    cases hp : g.prods A with
    | none =>
      by_cases hk : ∃ l, inp[i]? = some l ∧ l.kind = A
      · obtain ⟨l, h1, h2⟩ := hk; exact ⟨_, .term_ok hp h1 h2⟩
      · exact ⟨_, .term_no hp fun l h1 h2 => hk ⟨l, h1, h2⟩⟩
    | some ps =>
      obtain ⟨r, hr⟩ := alts_result (g := g) (ev := ev) (inp := inp) (A := A) (i := i) ps [] (by simp)
        fun bs xs B ys after j ts e hb hm => by
          simp only [List.nil_append] at e
          subst e
          exact ih (B, j) (.mk hp hb hm)
      exact ⟨_, .nonterm hp hr⟩

variable [DecidableEq α]

theorem choice_iff (hg : g.WF) : (∃ r, OrderedChoice g ev inp r) ↔ ¬ Loops g ev inp := by
  classical
  cases ho : g.order with
  | nil =>
    refine ⟨fun _ => ?_, fun _ => ⟨none, by simp [OrderedChoice, ho]⟩⟩
    rintro ⟨x, y, hx, _⟩
    cases hx with
    | mk h => simp [ho] at h
  | cons S rest =>
    obtain ⟨ps, hps⟩ := Option.isSome_iff_exists.1 ((hg S).2 (by simp [ho] : S ∈ g.order))
    have hS : g.order.head? = some S := by simp [ho]
    constructor
    · rintro ⟨r, hr⟩ ⟨x, y, hx, hxy, hy⟩
      simp only [OrderedChoice, hS] at hr
      obtain ⟨ps', e, hw⟩ := hr
      rw [hps] at e; cases e
      have ha : Acc (fun y x => Calls g ev inp x y) x := by
        cases hx with
        | mk h1 h2 h3 h4 =>
          rw [hS] at h1; cases h1
          rw [hps] at h2; cases h2
          exact whole_ends hw _ _ _ _ _ _ _ rfl h3 h4
      rcases hxy with rfl | hxy
      · exact acc_no_plus ha hy
      · exact acc_no_plus (acc_plus ha hxy) hy
    · intro hn
      have hsym : ∀ A ps p B, g.prods A = some ps → p ∈ ps → B ∈ p →
          B ∈ (g.order.flatMap fun A => ((g.prods A).getD []).flatten).toFinset := by
        intro A ps p B h1 h2 h3
        simp only [List.mem_toFinset, List.mem_flatMap]
        refine ⟨A, (hg A).1 (by simp [h1]), ?_⟩
        rw [h1]
        exact List.mem_flatten.2 ⟨p, h2, h3⟩
      have hacc := acc_of_finite (R := Calls g ev inp)
        (((g.order.flatMap fun A => ((g.prods A).getD []).flatten).toFinset ×ˢ
          Finset.range (inp.length + 1)).filter fun y =>
            ∃ x, StartCalls g ev inp x ∧ (x = y ∨ Plus (Calls g ev inp) x y)) (by
          intro x hx y hy
          simp only [Finset.mem_filter, Finset.mem_product, Finset.mem_range] at hx ⊢
          obtain ⟨⟨hx1, hx2⟩, s, hs, hsx⟩ := hx
          refine ⟨?_, s, hs, .inr ?_⟩
          · cases hy with
            | mk h1 _ h3 =>
              refine ⟨hsym _ _ _ _ h1 (List.mem_append_right _ (List.mem_cons_self ..)) (List.mem_append_right _ (List.mem_cons_self ..)), ?_⟩
              have := Match.bound h3 _ _ rfl
              simp only at hx2 ⊢
              omega
          · rcases hsx with rfl | hsx
            · exact .one hy
            · exact hsx.trans (.one hy)) (by
          intro x hx hp
          simp only [Finset.mem_filter] at hx
          obtain ⟨_, s, hs, hsx⟩ := hx
          exact hn ⟨s, x, hs, hsx, hp⟩)
      obtain ⟨r, hr⟩ := whole_result (g := g) (ev := ev) (inp := inp) (S := S) ps [] (by simp)
        fun bs xs B ys after j ts e hb hm => by
          simp only [List.nil_append] at e
          subst e
          have hst : StartCalls g ev inp (B, j) := .mk hS hps hb hm
          refine sym_result (hacc (B, j) ?_)
          simp only [Finset.mem_filter, Finset.mem_product, Finset.mem_range]
          refine ⟨⟨hsym _ _ _ _ hps (List.mem_append_right _ (List.mem_cons_self ..)) (List.mem_append_right _ (List.mem_cons_self ..)), ?_⟩, _, hst, .inl rfl⟩
          have := Match.bound hm _ _ rfl
          omega
      exact ⟨r, by simp only [OrderedChoice, hS]; exact ⟨ps, hps, hr⟩⟩

/-- C93: Parse does not return exactly when a symbol that is tried leads back to itself at the same
position. -/
theorem C93_diverges (ev : V) (g : Grammar α) (hg : g.WF) (ls : List (Lexeme α V)) :
    Out.Diverges (parse ev g ls) ↔ Loops g ev ls := by
  obtain ⟨h1, h2, h3⟩ := Verif.Props.Topdown.parse_iff ev g hg ls
  have hc := choice_iff (ev := ev) (inp := ls) hg
  constructor
  · intro hd
    by_contra hl
    obtain ⟨r, hr⟩ := hc.2 hl
    obtain ⟨N, hN⟩ := h2 r hr
    have := hN N (Nat.le_refl _)
    rw [hd N] at this
    cases this
  · intro hl n
    cases e : parse ev g ls n with
    | fuel => rfl
    | panic => exact absurd e (h3 n)
    | ok r => exact absurd hl (hc.1 ⟨r, h1 n r e⟩)

/-- C93: otherwise it returns. -/
theorem C93_returns (ev : V) (g : Grammar α) (hg : g.WF) (ls : List (Lexeme α V)) :
    (∃ r, Out.Returns (parse ev g ls) r) ↔ ¬ Loops g ev ls := by
  rw [← choice_iff hg]
  exact ⟨fun ⟨r, h⟩ => ⟨r, (Verif.Props.Topdown.C15_ordered_choice ev g hg ls r).1 h⟩,
    fun ⟨r, h⟩ => ⟨r, (Verif.Props.Topdown.C15_ordered_choice ev g hg ls r).2 h⟩⟩

omit [DecidableEq α] in
theorem calls_le {x y : α × Nat} (h : Calls g ev inp x y) : x.2 ≤ y.2 := by
  cases h with
  | mk _ _ hm => exact Match.le hm _ _ rfl

omit [DecidableEq α] in
theorem plus_le {x y : α × Nat} (h : Plus (Calls g ev inp) x y) : x.2 ≤ y.2 := by
  induction h with
  | one h => exact calls_le h
  | step h _ ih => exact (calls_le h).trans ih

omit [DecidableEq α] in
theorem calls_leftStep {x y : α × Nat} (h : Calls g ev inp x y) (he : x.2 = y.2) : g.LeftStep x.1 y.1 := by
  cases h with
  | @mk A i before xs B ys after j ts hp _ hm =>
    simp only at he
    subst he
    refine ⟨before.length, xs, ys, ⟨_, hp, by simp⟩, ?_⟩
    have := (Match.good hm _ _ rfl).der
    rwa [slice_self] at this

omit [DecidableEq α] in
theorem plus_leftStep {x y : α × Nat} (h : Plus (Calls g ev inp) x y) (he : x.2 = y.2) :
    Plus g.LeftStep x.1 y.1 := by
  induction h with
  | one h => exact .one (calls_leftStep h he)
  | step h hp ih =>
    have h1 := calls_le h
    have h2 := plus_le hp
    exact .step (calls_leftStep h (by omega)) (ih (by omega))

omit [DecidableEq α] in
/-- C93: the symbol that leads back to itself can begin a sentential form that it derives, so the
grammar is left recursive. -/
theorem C93_leftRecursive (h : Loops g ev inp) : g.LeftRecursive := by
  obtain ⟨x, y, _, _, hy⟩ := h
  exact ⟨y.1, plus_leftStep hy rfl⟩

open Verif.Props.Packrat (table table_wf lexs isTree isNil)
open Verif.Props.Topdown (isB isB_eq)

/-- `S -> N B ; N -> ; B -> a | N B b` with S = 2, N = 0, B = 1, a = 5, b = 6. -/
def gB : Grammar Nat := table [(2, [[0, 1]]), (0, [[]]), (1, [[5], [0, 1, 6]])]

/-- C93, a case of both: New accepts the grammar, Parse returns a tree for a, and does not return
for b, because B is tried at 0 while B is tried at 0. -/
theorem C93_said : Out.Returns (Verif.Topdown.new gB) true ∧
    (∃ t, Out.Returns (parse 0 gB (lexs [5])) (some t)) ∧ Out.Diverges (parse 0 gB (lexs [6])) := by
  refine ⟨?_, ?_, ?_⟩
  · obtain ⟨b, ⟨N, hN⟩, _⟩ := Verif.Props.Topdown.C12_terminates_sound gB (table_wf _)
    have h5 : isLeftRecursive gB 5 = .ok false := isB_eq (by decide +kernel)
    have := Out.Returns.eq_of (isLeftRecursive_mono gB) ⟨N, hN⟩ h5
    subst this
    exact ⟨N, fun n hn => by simp [Verif.Topdown.new, hN n hn]⟩
  · have hN : ∀ i, Match gB 0 (lexs [5]) (.sym 0) i (some (i, [.node ⟨0, 0, -1, 0⟩ []])) := fun i =>
      .nonterm (ps := [[]]) rfl (.alts_ok .seq_nil)
    have hB : Match gB 0 (lexs [5]) (.sym 1) 0 (some (1, _)) :=
      .nonterm (ps := [[5], [0, 1, 6]]) rfl (.alts_ok (.seq_cons (.term_ok (t := 5) rfl rfl rfl) .seq_nil))
    exact ⟨_, (Verif.Props.Topdown.C15_ordered_choice 0 gB (table_wf _) _ _).2
      ⟨[[0, 1]], rfl, .hit (.seq_cons (hN 0) (.seq_cons hB .seq_nil))⟩⟩
  · refine (C93_diverges 0 gB (table_wf _) _).2 ?_
    have hN : Match gB 0 (lexs [6]) (.seq [0]) 0 (some (0, _)) :=
      .seq_cons (.nonterm (ps := [[]]) rfl (.alts_ok .seq_nil)) .seq_nil
    refine ⟨(1, 0), (1, 0), ?_, .inl rfl, .one ?_⟩
    · exact .mk (S := 2) (before := []) (xs := [0]) (ys := []) (after := []) rfl rfl (by simp) hN
    · refine .mk (before := [[5]]) (xs := [0]) (ys := [6]) (after := []) rfl ?_ hN
      intro q hq
      simp only [List.mem_singleton] at hq
      subst hq
      exact .seq_no (.term_no rfl (by simp [lexs]))

end Verif.Props.TopdownLoop
