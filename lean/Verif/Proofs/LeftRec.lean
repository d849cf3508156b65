import Verif.Model.Topdown
import Verif.Proofs.CFG
import Verif.Spec.LeftStep
import Mathlib.Data.Finset.Card
/- IsLeftRecursive: termination, soundness, and completeness without nullable prefixes. -/
namespace Verif.Topdown
open Verif.Spec Verif.Spec.Grammar

variable {α : Type} [DecidableEq α] {g : Grammar α}

/-- Nonterminals not on the stack. -/
def free (g : Grammar α) (st : LR α) : Finset α := g.order.toFinset.filter fun x => st.stack x = false

/-- What a call of `check` guarantees when fewer than `b` nonterminals are off the stack. -/
def CheckSpec (g : Grammar α) (b : Nat) (rec : LR α → α → Out (LR α × Bool × Bool)) : Prop :=
  ∀ st s, (free g st).card < b → (∀ x, st.stack x = true → Plus g.EmptyStep x s) →
    ∃ st' lr nx, rec st s = .ok (st', lr, nx) ∧ (lr = true → (∃ A, Plus g.EmptyStep A A)) ∧
      (lr = false → st'.stack = st.stack ∧ (nx = true → ∃ j, g.Rule s j []))

theorem checkSyms_spec {b rec} (h : CheckSpec g b rec) {A k} : ∀ (suf pre : List α) st,
    g.Rule A k (pre ++ suf) → (∀ X ∈ pre, ∃ j, g.Rule X j []) → (free g st).card < b →
    (∀ B, g.EmptyStep A B → ∀ x, st.stack x = true → Plus g.EmptyStep x B) →
    ∃ st' lr, checkSyms rec st suf = .ok (st', lr) ∧ (lr = true → (∃ A, Plus g.EmptyStep A A)) ∧
      (lr = false → st'.stack = st.stack) := by
  intro suf
  induction suf with
  | nil => intro pre st _ _ _ _; exact ⟨st, false, rfl, by simp, by simp⟩
  | cons X suf ih =>
    intro pre st hr hd hc hs
    have hstep : g.EmptyStep A X := ⟨k, pre, suf, hr, hd⟩
    obtain ⟨st1, lr, nx, e, h1, h2⟩ := h st X hc (hs X hstep)
    simp only [checkSyms, e, Out.bind_ok]
    cases lr with
    | true => exact ⟨st1, true, by simp, fun _ => h1 rfl, by simp⟩
    | false =>
      obtain ⟨h3, h4⟩ := h2 rfl
      cases nx with
      | false => exact ⟨st1, false, by simp, by simp, fun _ => h3⟩
      | true =>
        have hf : free g st1 = free g st := by simp [free, h3]
        obtain ⟨st2, lr2, e2, h5, h6⟩ := ih (pre ++ [X]) st1 (by simpa using hr) (by
          intro Y hY
          rcases List.mem_append.1 hY with hY | hY
          · exact hd Y hY
          · simp at hY; subst hY; exact h4 rfl) (by rw [hf]; exact hc) (by rw [h3]; exact hs)
        refine ⟨st2, lr2, by simpa using e2, h5, fun h => ?_⟩
        rw [h6 h, h3]

theorem checkProds_spec {b rec} (h : CheckSpec g b rec) {A} : ∀ (ps : List (List α)) st nx,
    (∀ p ∈ ps, ∃ k, g.Rule A k p) → (nx = true → ∃ j, g.Rule A j []) → (free g st).card < b →
    (∀ B, g.EmptyStep A B → ∀ x, st.stack x = true → Plus g.EmptyStep x B) →
    ∃ st' lr nx', checkProds rec st nx ps = .ok (st', lr, nx') ∧ (lr = true → (∃ A, Plus g.EmptyStep A A)) ∧
      (lr = false → st'.stack = st.stack ∧ (nx' = true → ∃ j, g.Rule A j [])) := by
  intro ps
  induction ps with
  | nil => intro st nx _ hn _ _; exact ⟨st, false, nx, rfl, by simp, fun _ => ⟨rfl, hn⟩⟩
  | cons p ps ih =>
    intro st nx hr hn hc hs
    obtain ⟨k, hk⟩ := hr p (by simp)
    cases p with
    | nil =>
      simp only [checkProds]
      exact ih st true (fun p hp => hr p (by simp [hp]))
        (fun _ => ⟨k, hk⟩) hc hs
    | cons X p =>
      simp only [checkProds]
      obtain ⟨st1, lr, e, h1, h2⟩ := checkSyms_spec h (X :: p) [] st hk (by simp) hc hs
      rw [e]
      simp only [Out.bind_ok]
      cases lr with
      | true => exact ⟨st1, true, false, by simp, fun _ => h1 rfl, by simp⟩
      | false =>
        have h3 := h2 rfl
        have hf : free g st1 = free g st := by simp [free, h3]
        obtain ⟨st2, lr2, nx2, e2, h4, h5⟩ := ih st1 nx (fun p hp => hr p (by simp [hp])) hn
          (by rw [hf]; exact hc) (by rw [h3]; exact hs)
        refine ⟨st2, lr2, nx2, by simpa using e2, h4, fun h => ?_⟩
        rw [(h5 h).1, h3]
        exact ⟨rfl, (h5 h).2⟩

theorem check_spec (hg : g.WF) : ∀ n, CheckSpec g n (check g n) := by
  intro n
  induction n with
  | zero => intro st s h; omega
  | succ n ih =>
    intro st s hc hs
    simp only [check]
    split
    · exact ⟨st, false, false, rfl, by simp, by simp⟩
    · split
      · exact ⟨_, false, false, rfl, by simp, by simp⟩
      · rename_i ps hps
        split
        · rename_i hst
          exact ⟨st, true, false, rfl, fun _ => ⟨s, hs s hst⟩, by simp⟩
        · rename_i hst
          have hst : st.stack s = false := by simpa using hst
          have hso : s ∈ g.order := (hg s).1 (by simp [hps])
          have hlt : (free g { st with stack := upd st.stack s true }).card < n := by
            have : (free g { st with stack := upd st.stack s true }) ⊂ free g st := by
              rw [Finset.ssubset_iff_of_subset]
              · refine ⟨s, by simp [free, hso, hst], by simp [free]⟩
              · intro x hx
                simp only [free, Finset.mem_filter] at hx ⊢
                by_cases hxs : x = s
                · subst hxs; simp at hx
                · rw [upd_ne _ _ hxs] at hx; exact hx
            have := Finset.card_lt_card this
            omega
          obtain ⟨st1, lr, nx, e, h1, h2⟩ := checkProds_spec ih (A := s) ps
            { st with stack := upd st.stack s true } false
            (fun p hp => by
              obtain ⟨k, hk⟩ := List.mem_iff_getElem?.1 hp
              exact ⟨k, ps, hps, hk⟩) (by simp) hlt (by
              intro B hB x hx
              by_cases hxs : x = s
              · subst hxs; exact .one hB
              · simp only [upd_ne _ _ hxs] at hx
                exact (hs x hx).trans (.one hB))
          rw [e]
          simp only [Out.bind_ok]
          cases lr with
          | true => exact ⟨st1, true, false, by simp, fun _ => h1 rfl, by simp⟩
          | false =>
            obtain ⟨h3, h4⟩ := h2 rfl
            refine ⟨_, false, nx, by simp; rfl, by simp, fun _ => ⟨?_, h4⟩⟩
            funext x
            simp only
            by_cases hxs : x = s
            · subst hxs; simp [hst]
            · rw [upd_ne _ _ hxs, h3]; simp only [upd_ne _ _ hxs]

theorem lrLoop_spec (hg : g.WF) {fuel} (hf : g.order.toFinset.card < fuel) :
    ∀ (l : List α) ch, ∃ b, lrLoop g fuel ch l = .ok b ∧ (b = true → (∃ A, Plus g.EmptyStep A A)) := by
  intro l
  induction l with
  | nil => intro ch; exact ⟨false, rfl, by simp⟩
  | cons a l ih =>
    intro ch
    obtain ⟨st', lr, nx, e, h1, h2⟩ := check_spec hg fuel ⟨ch, fun _ => false⟩ a
      (Nat.lt_of_le_of_lt (Finset.card_filter_le _ _) hf) (by simp)
    simp only [lrLoop, e, Out.bind_ok]
    cases lr with
    | true => exact ⟨true, by simp, fun _ => h1 rfl⟩
    | false => simpa using ih st'.checked

/-! ### Completeness -/

/-- In every production the first symbol, if another one follows, does not derive the empty word. -/
def NoNullablePrefix (g : Grammar α) : Prop := ∀ A k X Y p, g.Rule A k (X :: Y :: p) → ¬ g.Derives [X] []

omit [DecidableEq α] in
theorem leftStep_head (h : NoNullablePrefix g) {A B} (hs : g.LeftStep A B) :
    g.FirstStep A B := by
  obtain ⟨k, pre, post, hr, hd⟩ := hs
  cases pre with
  | nil => exact ⟨k, post, hr⟩
  | cons X pre =>
    have hX : g.Derives [X] [] := by
      generalize hw : ([] : List α) = w at hd
      cases hd with
      | term => cases hw
      | nonterm hr' h1 h2 =>
        obtain ⟨e1, e2⟩ := List.append_eq_nil_iff.1 hw.symm
        rw [e1] at h1
        rw [← hw]
        exact .nonterm (u := []) (v := []) hr' h1 .nil
    cases pre with
    | nil => exact absurd hX (h A k X B post hr)
    | cons Y pre => exact absurd hX (h A k X Y _ hr)

/-- Expansion of first symbols from every checked symbol ends. -/
def AccInv (g : Grammar α) (ch : α → Bool) : Prop :=
  ∀ x, ch x = true → Acc (fun y x => g.FirstStep x y) x

/-- What a call of `check` adds to the checked symbols. -/
def CheckAcc (g : Grammar α) (rec : LR α → α → Out (LR α × Bool × Bool)) : Prop :=
  ∀ st s st' nx, rec st s = .ok (st', false, nx) → AccInv g st.checked →
    AccInv g st'.checked ∧ st'.checked s = true ∧ ∀ x, st.checked x = true → st'.checked x = true

omit [DecidableEq α] in
theorem checkSyms_acc {rec} (h : CheckAcc g rec) : ∀ (p : List α) st st',
    checkSyms rec st p = .ok (st', false) → AccInv g st.checked →
    AccInv g st'.checked ∧ (∀ X, p.head? = some X → st'.checked X = true) ∧
      ∀ x, st.checked x = true → st'.checked x = true := by
  intro p
  induction p with
  | nil => intro st st' e ha; cases e; exact ⟨ha, by simp, fun _ h => h⟩
  | cons X p ih =>
    intro st st' e ha
    simp only [checkSyms] at e
    obtain ⟨⟨st1, lr, nx⟩, e1, e⟩ := Out.bind_eq_ok.1 e
    cases lr with
    | true => simp at e
    | false =>
      obtain ⟨h1, h2, h3⟩ := h st X st1 nx e1 ha
      cases nx with
      | false =>
        simp at e
        subst e
        exact ⟨h1, by simpa using h2, h3⟩
      | true =>
        simp at e
        obtain ⟨h4, _, h6⟩ := ih st1 st' e h1
        exact ⟨h4, by intro Y hY; simp at hY; subst hY; exact h6 _ h2, fun x hx => h6 x (h3 x hx)⟩

omit [DecidableEq α] in
theorem checkProds_acc {rec} (h : CheckAcc g rec) : ∀ (ps : List (List α)) st nx st' nx',
    checkProds rec st nx ps = .ok (st', false, nx') → AccInv g st.checked →
    AccInv g st'.checked ∧ (∀ p ∈ ps, ∀ X, p.head? = some X → st'.checked X = true) ∧
      ∀ x, st.checked x = true → st'.checked x = true := by
  intro ps
  induction ps with
  | nil => intro st nx st' nx' e ha; cases e; exact ⟨ha, by simp, fun _ h => h⟩
  | cons p ps ih =>
    intro st nx st' nx' e ha
    cases p with
    | nil =>
      simp only [checkProds] at e
      obtain ⟨h1, h2, h3⟩ := ih _ _ _ _ e ha
      refine ⟨h1, ?_, h3⟩
      intro p hp X hX
      rcases List.mem_cons.1 hp with rfl | hp
      · cases hX
      · exact h2 p hp X hX
    | cons Y p =>
      simp only [checkProds] at e
      obtain ⟨⟨st1, lr⟩, e1, e⟩ := Out.bind_eq_ok.1 e
      cases lr with
      | true => simp at e
      | false =>
        simp at e
        obtain ⟨h1, h2, h3⟩ := checkSyms_acc h _ _ _ e1 ha
        obtain ⟨h4, h5, h6⟩ := ih _ _ _ _ e h1
        refine ⟨h4, ?_, fun x hx => h6 x (h3 x hx)⟩
        intro q hq X hX
        rcases List.mem_cons.1 hq with rfl | hq
        · exact h6 X (h2 X hX)
        · exact h5 q hq X hX

theorem check_acc : ∀ n, CheckAcc g (check g n) := by
  intro n
  induction n with
  | zero => intro st s st' nx e; cases e
  | succ n ih =>
    intro st s st' nx e ha
    simp only [check] at e
    split at e
    · rename_i hch
      cases e; exact ⟨ha, hch, fun _ h => h⟩
    · split at e
      · rename_i hps
        cases e
        refine ⟨?_, by simp, ?_⟩
        · intro x hx
          by_cases hxs : x = s
          · subst hxs
            refine ⟨_, fun y hy => ?_⟩
            obtain ⟨k, post, ps, e, _⟩ := hy
            rw [hps] at e; cases e
          · simp only [upd_ne _ _ hxs] at hx; exact ha x hx
        · intro x hx
          by_cases hxs : x = s
          · subst hxs; simp
          · simp only [upd_ne _ _ hxs]; exact hx
      · rename_i ps hps
        split at e
        · simp at e
        · obtain ⟨⟨st1, lr, nx1⟩, e1, e⟩ := Out.bind_eq_ok.1 e
          cases lr with
          | true => simp at e
          | false =>
            simp at e
            obtain ⟨rfl, rfl⟩ := e
            obtain ⟨h1, h2, h3⟩ := checkProds_acc ih _ _ _ _ _ e1 ha
            refine ⟨?_, by simp, ?_⟩
            · intro x hx
              by_cases hxs : x = s
              · subst hxs
                refine ⟨_, fun y hy => ?_⟩
                obtain ⟨k, post, ps', e, e2⟩ := hy
                rw [hps] at e; cases e
                exact h1 y (h2 _ (List.mem_of_getElem? e2) y rfl)
              · simp only [upd_ne _ _ hxs] at hx; exact h1 x hx
            · intro x hx
              by_cases hxs : x = s
              · subst hxs; simp
              · simp only [upd_ne _ _ hxs]; exact h3 x hx

theorem lrLoop_acc {fuel} : ∀ (l : List α) ch, AccInv g ch →
    lrLoop g fuel ch l = .ok false → ∀ x ∈ l, Acc (fun y x => g.FirstStep x y) x := by
  intro l
  induction l with
  | nil => intro ch _ _ x hx; cases hx
  | cons a l ih =>
    intro ch ha e x hx
    simp only [lrLoop] at e
    obtain ⟨⟨st1, lr, nx⟩, e1, e⟩ := Out.bind_eq_ok.1 e
    cases lr with
    | true => simp at e
    | false =>
      simp at e
      obtain ⟨h1, h2, h3⟩ := check_acc fuel _ _ _ _ e1 ha
      rcases List.mem_cons.1 hx with rfl | hx
      · exact h1 _ h2
      · exact ih _ h1 e x hx

omit [DecidableEq α] in
theorem acc_no_plus {A : α} (h : Acc (fun y x => g.FirstStep x y) A) : ¬ Plus g.FirstStep A A := by
  induction h with
  | intro x _ ih =>
    intro hp
    cases hp with
    | one h => exact ih x h (.one h)
    | step h hp => exact ih _ h (hp.trans (.one h))

theorem not_firstRecursive (hg : g.WF) {fuel}
    (e : isLeftRecursive g fuel = .ok false) : ¬ ∃ A, Plus g.FirstStep A A := by
  rintro ⟨A, hA⟩
  have hAo : A ∈ g.order := by
    refine (hg A).1 ?_
    cases hA with
    | one h => obtain ⟨k, _, ps, e, _⟩ := h; simp [e]
    | step h _ => obtain ⟨k, _, ps, e, _⟩ := h; simp [e]
  exact acc_no_plus (lrLoop_acc _ _ (by intro x hx; cases hx) e A hAo) hA

theorem not_leftRecursive (hg : g.WF) (hn : NoNullablePrefix g) {fuel}
    (e : isLeftRecursive g fuel = .ok false) : ¬ g.LeftRecursive := by
  rintro ⟨A, hA⟩
  exact not_firstRecursive hg e ⟨A, hA.imp fun _ _ h => leftStep_head hn h⟩

/-! ### Fuel -/

omit [DecidableEq α] in
theorem checkSyms_mono {r1 r2 : LR α → α → Out (LR α × Bool × Bool)}
    (h : ∀ st s, Out.Le (r1 st s) (r2 st s)) : ∀ (p : List α) st,
    Out.Le (checkSyms r1 st p) (checkSyms r2 st p) := by
  intro p
  induction p with
  | nil => intro st; exact .refl _
  | cons X p ih =>
    intro st
    refine (h st X).bind fun r => ?_
    split
    · exact .refl _
    · split
      · exact ih _
      · exact .refl _

omit [DecidableEq α] in
theorem checkProds_mono {r1 r2 : LR α → α → Out (LR α × Bool × Bool)}
    (h : ∀ st s, Out.Le (r1 st s) (r2 st s)) : ∀ (ps : List (List α)) st nx,
    Out.Le (checkProds r1 st nx ps) (checkProds r2 st nx ps) := by
  intro ps
  induction ps with
  | nil => intro st nx; exact .refl _
  | cons p ps ih =>
    intro st nx
    cases p with
    | nil => exact ih _ _
    | cons X p =>
      refine (checkSyms_mono h _ _).bind fun r => ?_
      split
      · exact .refl _
      · exact ih _ _

theorem check_mono (g : Grammar α) : ∀ n m, n ≤ m → ∀ st s, Out.Le (check g n st s) (check g m st s) := by
  intro n
  induction n with
  | zero => intro m _ st s; exact .inl rfl
  | succ n ih =>
    intro m hm st s
    obtain ⟨m, rfl⟩ : ∃ k, m = k + 1 := ⟨m - 1, by omega⟩
    simp only [check]
    split
    · exact .refl _
    · split
      · exact .refl _
      · split
        · exact .refl _
        · exact (checkProds_mono (ih m (by omega)) _ _ _).bind fun r => .refl _

theorem isLeftRecursive_mono (g : Grammar α) : ∀ n m, n ≤ m →
    Out.Le (isLeftRecursive g n) (isLeftRecursive g m) := by
  intro n m h
  suffices ∀ (l : List α) ch, Out.Le (lrLoop g n ch l) (lrLoop g m ch l) from this _ _
  intro l
  induction l with
  | nil => intro ch; exact .refl _
  | cons a l ih =>
    intro ch
    refine (check_mono g n m h _ _).bind fun r => ?_
    split
    · exact .refl _
    · exact ih _

end Verif.Topdown
