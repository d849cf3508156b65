import Verif.Model.Analyze
import Verif.Proofs.First
import Verif.Proofs.Packrat.Lift
import Mathlib.Data.Finset.Card
import Mathlib.Data.Finset.Range
/- The depth first search of `firsts`: it returns, what it stores is sound, and without cycles it is
complete. -/
namespace Verif.Analyze
open Verif.Spec Verif.Spec.Grammar

/-- The symbols of the grammar are below `ln`. -/
structure Closed (ln : Nat) (g : Grammar Nat) : Prop where
  nt : ∀ A ps, g.prods A = some ps → A < ln
  syms : ∀ A k p, g.Rule A k p → ∀ X ∈ p, X < ln

/-- Symbols not yet visited. -/
def free (ln : Nat) (st : St) : Finset Nat := (Finset.range ln).filter fun x => st.done x = false

/-- Every nonterminal has a production that is not empty. -/
def NE (g : Grammar Nat) : Prop := ∀ A ps, g.prods A = some ps → ∃ p ∈ ps, p ≠ []

/-- `fs` and `nl` only say true things about `A`. -/
structure SoundVal (g : Grammar Nat) (ln : Nat) (st : St) (A : Nat) (fs : List Nat) (nl : Bool) : Prop where
  term : ∀ t ∈ fs, g.Term t
  lt : ∀ t ∈ fs, t < ln
  scan : ∀ t ∈ fs, Plus g.ScanStep A t
  terms : ∀ t ∈ fs, st.terminals t = true
  nil : nl = true → g.LeftNil A

structure Sound (g : Grammar Nat) (ln : Nat) (st : St) : Prop where
  val : ∀ A, SoundVal g ln st A (st.nonterm2firsts A) (st.nilInFirst A)
  terms : ∀ t, st.terminals t = true → g.Term t ∧ ∃ A, g.ScanStep A t

structure Mono (st st' : St) : Prop where
  done : ∀ x, st.done x = true → st'.done x = true
  terms : ∀ x, st.terminals x = true → st'.terminals x = true

theorem Mono.refl (st : St) : Mono st st := ⟨fun _ h => h, fun _ h => h⟩
theorem Mono.trans {a b c : St} (h : Mono a b) (h' : Mono b c) : Mono a c :=
  ⟨fun x hx => h'.done x (h.done x hx), fun x hx => h'.terms x (h.terms x hx)⟩

theorem SoundVal.mono {g ln st st' A fs nl} (h : SoundVal g ln st A fs nl) (m : Mono st st') :
    SoundVal g ln st' A fs nl := ⟨h.term, h.lt, h.scan, fun t ht => m.terms t (h.terms t ht), h.nil⟩

theorem free_le {ln st st'} (m : Mono st st') : (free ln st').card ≤ (free ln st).card := by
  refine Finset.card_le_card fun x hx => ?_
  simp only [free, Finset.mem_filter] at hx ⊢
  refine ⟨hx.1, ?_⟩
  cases h : st.done x with
  | false => rfl
  | true => rw [m.done x h] at hx; simp at hx

/-- `fs` and `nl` say everything about `A`. -/
structure CompVal (g : Grammar Nat) (A : Nat) (fs : List Nat) (nl : Bool) : Prop where
  scan : ∀ t, g.Term t → Plus g.ScanStep A t → t ∈ fs
  nil : g.LeftNil A → nl = true
  ne : NE g → fs ≠ []

/-- Every visited symbol is in progress or finished. -/
def Inv (g : Grammar Nat) (stk : Nat → Prop) (st : St) : Prop :=
  ∀ x, st.done x = true → stk x ∨ CompVal g x (st.nonterm2firsts x) (st.nilInFirst x)

/-- What a call of `firsts` guarantees when fewer than `b` symbols are unvisited. -/
def CallSpec (g : Grammar Nat) (ln b : Nat) (rec : St → Nat → Out (St × List Nat × Bool)) : Prop :=
  ∀ st s, s < ln → g.prods s ≠ none → (free ln st).card < b → Sound g ln st →
    ∃ st' fs nl, rec st s = .ok (st', fs, nl) ∧ Mono st st' ∧ st'.done s = true ∧ Sound g ln st' ∧
      SoundVal g ln st' s fs nl ∧
      (g.ScanAcyclic → ∀ stk, Inv g stk st → (∀ x, stk x → Plus g.ScanStep x s) →
        Inv g stk st' ∧ CompVal g s fs nl)

/-- What the results say about a rest `suf` of a production. -/
structure CompSuf (g : Grammar Nat) (suf fs : List Nat) (nl : Bool) : Prop where
  term : ∀ pre X post, suf = pre ++ X :: post → (∀ Y ∈ pre, g.LeftNil Y) → g.Term X → X ∈ fs
  scan : ∀ pre X post, suf = pre ++ X :: post → (∀ Y ∈ pre, g.LeftNil Y) →
    ∀ t, g.Term t → Plus g.ScanStep X t → t ∈ fs
  nil : ∀ X post, suf = X :: post → g.LeftNil X → nl = true
  ne : NE g → suf ≠ [] → fs ≠ []

variable {g : Grammar Nat} {ln : Nat}

theorem term_not_leftNil {X : Nat} (h : g.Term X) : ¬ g.LeftNil X := by
  have h : g.prods X = none := h
  intro hl
  cases hl with
  | empty hr => obtain ⟨ps, e, _⟩ := hr; rw [h] at e; cases e
  | left hr => obtain ⟨ps, e, _⟩ := hr; rw [h] at e; cases e

theorem term_not_scan {X t : Nat} (h : g.Term X) : ¬ Plus g.ScanStep X t := by
  have h : g.prods X = none := h
  intro hl
  cases hl with
  | one hr => obtain ⟨k, pre, post, ⟨ps, e, _⟩, _⟩ := hr; rw [h] at e; cases e
  | step hr => obtain ⟨k, pre, post, ⟨ps, e, _⟩, _⟩ := hr; rw [h] at e; cases e

theorem CompSuf.mono {suf fs nl fs' nl'} (h : CompSuf g suf fs nl) (hf : ∀ t ∈ fs, t ∈ fs')
    (hn : nl = true → nl' = true) : CompSuf g suf fs' nl' :=
  ⟨fun a b c e l t => hf _ (h.term a b c e l t), fun a b c e l t ht p => hf _ (h.scan a b c e l t ht p),
    fun X p e l => hn (h.nil X p e l), fun n e e' => by
      obtain ⟨t, ht⟩ := List.exists_mem_of_ne_nil _ (h.ne n e)
      have := hf t ht
      rw [e'] at this; cases this⟩

theorem symLoop_spec (hc : Closed ln g) {b rec} (h : CallSpec g ln b rec) {A k} :
    ∀ (suf pre : List Nat) st fs nl, g.Rule A k (pre ++ suf) → (∀ Y ∈ pre, g.LeftNil Y) →
    (free ln st).card < b → Sound g ln st → SoundVal g ln st A fs nl →
    ∃ st' fs' nl', symLoop ln g.prods rec st fs nl suf = .ok (st', fs', nl') ∧ Mono st st' ∧
      Sound g ln st' ∧ SoundVal g ln st' A fs' nl' ∧ (∀ t ∈ fs, t ∈ fs') ∧ (nl = true → nl' = true) ∧
      (g.ScanAcyclic → ∀ stk, Inv g stk st →
        (∀ x, stk x → ∀ B, g.ScanStep A B → Plus g.ScanStep x B) →
        Inv g stk st' ∧ CompSuf g suf fs' nl') := by
  intro suf
  induction suf with
  | nil =>
    intro pre st fs nl _ _ _ hs hv
    refine ⟨st, fs, nl, rfl, .refl _, hs, hv, fun t h => h, fun h => h, fun _ stk hi _ => ⟨hi, ?_⟩⟩
    exact ⟨by simp, by simp, by simp, by simp⟩
  | cons X suf ih =>
    intro pre st fs nl hr hp hb hs hv
    have hX : X < ln := hc.syms _ _ _ hr X (by simp)
    have hstep : g.ScanStep A X := ⟨k, pre, suf, hr, hp⟩
    cases e : g.prods X with
    | none =>
      have ht : g.Term X := e
      refine ⟨{ st with terminals := upd st.terminals X true }, fs ++ [X], nl,
        by simp only [symLoop, e, if_pos hX], ⟨fun x h => h, ?_⟩, ⟨?_, ?_⟩, ?_, ?_, fun h => h, ?_⟩
      · intro x hx
        by_cases hxX : x = X
        · subst hxX; simp
        · simpa [upd_ne _ _ hxX] using hx
      · intro B
        refine (hs.val B).mono ⟨fun x h => h, ?_⟩
        intro x hx
        by_cases hxX : x = X
        · subst hxX; simp
        · simpa [upd_ne _ _ hxX] using hx
      · intro t htt
        by_cases hxX : t = X
        · subst hxX; exact ⟨ht, A, hstep⟩
        · simp only [upd_ne _ _ hxX] at htt
          exact hs.terms t htt
      · refine ⟨?_, ?_, ?_, ?_, hv.nil⟩
        · intro t h; rcases List.mem_append.1 h with h | h
          · exact hv.term t h
          · rw [List.mem_singleton.1 h]; exact ht
        · intro t h; rcases List.mem_append.1 h with h | h
          · exact hv.lt t h
          · rw [List.mem_singleton.1 h]; exact hX
        · intro t h; rcases List.mem_append.1 h with h | h
          · exact hv.scan t h
          · rw [List.mem_singleton.1 h]; exact .one hstep
        · intro t h; rcases List.mem_append.1 h with h | h
          · by_cases hxX : t = X
            · subst hxX; simp
            · simpa [upd_ne _ _ hxX] using hv.terms t h
          · rw [List.mem_singleton.1 h]; simp
      · intro t h; simp [h]
      · intro _ stk hi _
        refine ⟨hi, ?_, ?_, ?_, by simp⟩
        · intro p2 Y post e2 hp2 hY
          cases p2 with
          | nil => cases e2; simp
          | cons Z p2 =>
            cases e2
            exact absurd (hp2 X (by simp)) (term_not_leftNil ht)
        · intro p2 Y post e2 hp2 t _ hY
          cases p2 with
          | nil => cases e2; exact absurd hY (term_not_scan ht)
          | cons Z p2 =>
            cases e2
            exact absurd (hp2 X (by simp)) (term_not_leftNil ht)
        · intro Y post e2 hY
          cases e2; exact absurd hY (term_not_leftNil ht)
    | some ps =>
      obtain ⟨st1, fs1, nl1, e1, m1, -, hs1, hv1, hc1⟩ := h st X hX (by simp [e]) hb hs
      simp only [symLoop, e, e1, Out.bind_ok]
      have hnl : nl1 = true → g.LeftNil A := by
        intro hn
        cases pre with
        | nil => exact .left hr (hv1.nil hn)
        | cons Y pre => exact .left hr (hp Y (by simp))
      have hv2 : SoundVal g ln st1 A (fs ++ fs1) (nl || nl1) := by
        refine ⟨?_, ?_, ?_, ?_, ?_⟩
        · intro t h; rcases List.mem_append.1 h with h | h
          · exact hv.term t h
          · exact hv1.term t h
        · intro t h; rcases List.mem_append.1 h with h | h
          · exact hv.lt t h
          · exact hv1.lt t h
        · intro t h; rcases List.mem_append.1 h with h | h
          · exact hv.scan t h
          · exact .step hstep (hv1.scan t h)
        · intro t h; rcases List.mem_append.1 h with h | h
          · exact m1.terms t (hv.terms t h)
          · exact hv1.terms t h
        · intro hn
          rcases Bool.or_eq_true _ _ ▸ hn with hn | hn
          · exact hv.nil hn
          · exact hnl hn
      cases hd : nl1 with
      | false =>
        subst hd
        refine ⟨st1, fs ++ fs1, nl || false, by simp, m1, hs1, hv2, fun t h => by simp [h],
          fun h => by simp [h], ?_⟩
        intro ha stk hi hk
        obtain ⟨hi1, hcv⟩ := hc1 ha stk hi fun x hx => hk x hx X hstep
        have hX : ¬ g.LeftNil X := fun hl => by have := hcv.nil hl; cases this
        refine ⟨hi1, ?_, ?_, ?_, ?_⟩
        · intro p2 Y post e2 hp2 hY
          cases p2 with
          | nil => cases e2; have hY : g.prods X = none := hY; rw [e] at hY; cases hY
          | cons Z p2 => cases e2; exact absurd (hp2 X (by simp)) hX
        · intro p2 Y post e2 hp2 t ht hY
          cases p2 with
          | nil => cases e2; exact List.mem_append_right _ (hcv.scan t ht hY)
          | cons Z p2 => cases e2; exact absurd (hp2 X (by simp)) hX
        · intro Y post e2 hY
          cases e2; exact absurd hY hX
        · intro hn _
          have := hcv.ne hn
          simp [this]
      | true =>
        subst hd
        obtain ⟨st2, fs2, nl2, e2, m2, hs2, hv3, hf2, hn2, hc2⟩ := ih (pre ++ [X]) st1 (fs ++ fs1)
          (nl || true) (by simpa using hr) (by
            intro Y hY
            rcases List.mem_append.1 hY with hY | hY
            · exact hp Y hY
            · rw [List.mem_singleton.1 hY]; exact hv1.nil rfl)
          (Nat.lt_of_le_of_lt (free_le m1) hb) hs1 hv2
        refine ⟨st2, fs2, nl2, by simpa using e2, m1.trans m2, hs2, hv3,
          fun t h => hf2 t (by simp [h]), fun _ => hn2 (by simp), ?_⟩
        intro ha stk hi hk
        obtain ⟨hi1, hcv⟩ := hc1 ha stk hi fun x hx => hk x hx X hstep
        obtain ⟨hi2, hcs⟩ := hc2 ha stk hi1 hk
        refine ⟨hi2, ?_, ?_, ?_, ?_⟩
        · intro p2 Y post e2 hp2 hY
          cases p2 with
          | nil => cases e2; have hY : g.prods X = none := hY; rw [e] at hY; cases hY
          | cons Z p2 =>
            simp only [List.cons_append, List.cons.injEq] at e2
            exact hcs.term p2 Y post e2.2 (fun W hW => hp2 W (by simp [hW])) hY
        · intro p2 Y post e2 hp2 t ht hY
          cases p2 with
          | nil => cases e2; exact hf2 t (List.mem_append_right _ (hcv.scan t ht hY))
          | cons Z p2 =>
            simp only [List.cons_append, List.cons.injEq] at e2
            exact hcs.scan p2 Y post e2.2 (fun W hW => hp2 W (by simp [hW])) t ht hY
        · intro _ _ _ _; exact hn2 (by simp)
        · intro hn _ e3
          obtain ⟨t, ht⟩ := List.exists_mem_of_ne_nil _ (hcv.ne hn)
          have := hf2 t (by simp [ht])
          rw [e3] at this; cases this

theorem prodLoop_spec (hc : Closed ln g) {b rec} (h : CallSpec g ln b rec) {A} :
    ∀ (ps : List (List Nat)) st fs nl, (∀ p ∈ ps, ∃ k, g.Rule A k p) →
    (free ln st).card < b → Sound g ln st → SoundVal g ln st A fs nl →
    ∃ st' fs' nl', prodLoop ln g.prods rec st fs nl ps = .ok (st', fs', nl') ∧ Mono st st' ∧
      Sound g ln st' ∧ SoundVal g ln st' A fs' nl' ∧ (∀ t ∈ fs, t ∈ fs') ∧ (nl = true → nl' = true) ∧
      (g.ScanAcyclic → ∀ stk, Inv g stk st →
        (∀ x, stk x → ∀ B, g.ScanStep A B → Plus g.ScanStep x B) →
        Inv g stk st' ∧ ∀ p ∈ ps, (p = [] → nl' = true) ∧ CompSuf g p fs' nl') := by
  intro ps
  induction ps with
  | nil =>
    intro st fs nl _ _ hs hv
    exact ⟨st, fs, nl, rfl, .refl _, hs, hv, fun t h => h, fun h => h, fun _ stk hi _ => ⟨hi, by simp⟩⟩
  | cons p ps ih =>
    intro st fs nl hr hb hs hv
    obtain ⟨k, hk⟩ := hr p (by simp)
    have hr' : ∀ p ∈ ps, ∃ k, g.Rule A k p := fun p hp => hr p (by simp [hp])
    cases p with
    | nil =>
      obtain ⟨st2, fs2, nl2, e2, m2, hs2, hv2, hf2, hn2, hc2⟩ := ih st fs true hr' hb hs
        ⟨hv.term, hv.lt, hv.scan, hv.terms, fun _ => .empty hk⟩
      refine ⟨st2, fs2, nl2, e2, m2, hs2, hv2, hf2, fun _ => hn2 rfl, ?_⟩
      intro ha stk hi hk
      obtain ⟨hi2, hcs⟩ := hc2 ha stk hi hk
      refine ⟨hi2, fun p hp => ?_⟩
      rcases List.mem_cons.1 hp with rfl | hp
      · exact ⟨fun _ => hn2 rfl, by simp, by simp, by simp, by simp⟩
      · exact hcs p hp
    | cons X p =>
      obtain ⟨st1, fs1, nl1, e1, m1, hs1, hv1, hf1, hn1, hc1⟩ :=
        symLoop_spec hc h (X :: p) [] st fs nl hk (by simp) hb hs hv
      obtain ⟨st2, fs2, nl2, e2, m2, hs2, hv2, hf2, hn2, hc2⟩ := ih st1 fs1 nl1 hr'
        (Nat.lt_of_le_of_lt (free_le m1) hb) hs1 hv1
      refine ⟨st2, fs2, nl2, by simp [prodLoop, e1, e2], m1.trans m2, hs2, hv2,
        fun t h => hf2 t (hf1 t h), fun h => hn2 (hn1 h), ?_⟩
      intro ha stk hi hk
      obtain ⟨hi1, hcs1⟩ := hc1 ha stk hi hk
      obtain ⟨hi2, hcs⟩ := hc2 ha stk hi1 hk
      refine ⟨hi2, fun q hq => ?_⟩
      rcases List.mem_cons.1 hq with rfl | hq
      · exact ⟨by simp, hcs1.mono hf2 hn2⟩
      · exact hcs q hq

theorem firsts_spec (hc : Closed ln g) : ∀ n, CallSpec g ln n (firsts ln g.prods n) := by
  intro n
  induction n with
  | zero => intro st s _ _ h; omega
  | succ n ih =>
    intro st s hs hp hb hS
    simp only [firsts, if_neg (Nat.not_le.2 hs)]
    cases hd : st.done s with
    | true =>
      refine ⟨st, _, _, by simp, .refl _, hd, hS, hS.val s, fun ha stk hi hk => ⟨hi, ?_⟩⟩
      rcases hi s hd with h | h
      · exact absurd (hk s h) (ha s)
      · exact h
    | false =>
      cases e : g.prods s with
      | none => exact absurd e hp
      | some ps =>
        have hr : ∀ p ∈ ps, ∃ k, g.Rule s k p := by
          intro p hp
          obtain ⟨k, hk⟩ := List.mem_iff_getElem?.1 hp
          exact ⟨k, ps, e, hk⟩
        have hb' : (free ln { st with done := upd st.done s true }).card < n := by
          have : free ln { st with done := upd st.done s true } ⊂ free ln st := by
            rw [Finset.ssubset_iff_of_subset]
            · exact ⟨s, by simp [free, hs, hd], by simp [free]⟩
            · intro x hx
              simp only [free, Finset.mem_filter] at hx ⊢
              by_cases hxs : x = s
              · subst hxs; simp at hx
              · rw [upd_ne _ _ hxs] at hx; exact hx
          have := Finset.card_lt_card this
          omega
        have hS0 : Sound g ln { st with done := upd st.done s true } :=
          ⟨fun A => ⟨(hS.val A).term, (hS.val A).lt, (hS.val A).scan, (hS.val A).terms, (hS.val A).nil⟩,
            hS.terms⟩
        have hm0 : Mono st { st with done := upd st.done s true } := by
          refine ⟨fun x hx => ?_, fun x h => h⟩
          by_cases hxs : x = s
          · subst hxs; simp
          · simpa [upd_ne _ _ hxs] using hx
        obtain ⟨st1, fs, nl, e1, m1, hs1, hv1, -, -, hc1⟩ := prodLoop_spec hc ih (A := s) ps
          { st with done := upd st.done s true } [] false hr hb' hS0
          ⟨by simp, by simp, by simp, by simp, by simp⟩
        simp only [e1, Out.bind_ok]
        refine ⟨_, fs, nl, rfl, ?_, ?_, ?_, ?_, ?_⟩
        · have := hm0.trans m1
          exact ⟨this.done, this.terms⟩
        · exact m1.done s (by simp)
        · refine ⟨fun A => ?_, hs1.terms⟩
          by_cases hA : A = s
          · subst hA
            simp only [upd_same]
            exact ⟨hv1.term, hv1.lt, hv1.scan, hv1.terms, hv1.nil⟩
          · simp only [upd_ne _ _ hA]
            have := hs1.val A
            exact ⟨this.term, this.lt, this.scan, this.terms, this.nil⟩
        · exact ⟨hv1.term, hv1.lt, hv1.scan, hv1.terms, hv1.nil⟩
        · intro ha stk hi hk
          have hi0 : Inv g (fun x => stk x ∨ x = s) { st with done := upd st.done s true } := by
            intro x hx
            by_cases hxs : x = s
            · exact .inl (.inr hxs)
            · simp only [upd_ne _ _ hxs] at hx
              rcases hi x hx with h | h
              · exact .inl (.inl h)
              · exact .inr h
          obtain ⟨hi1, hcs⟩ := hc1 ha _ hi0 (by
            intro x hx B hB
            rcases hx with hx | rfl
            · exact (hk x hx).trans (.one hB)
            · exact .one hB)
          have hcv : CompVal g s fs nl := by
            refine ⟨?_, ?_, ?_⟩
            · intro t ht hpl
              have key : ∀ B, g.ScanStep s B → (B = t ∨ Plus g.ScanStep B t) → t ∈ fs := by
                rintro B ⟨k, pre, post, ⟨ps', e', hk'⟩, hl⟩ hB
                rw [e] at e'
                cases e'
                have hcp := (hcs _ (List.mem_of_getElem? hk')).2
                rcases hB with rfl | hB
                · exact hcp.term pre B post rfl hl ht
                · exact hcp.scan pre B post rfl hl t ht hB
              cases hpl with
              | one h => exact key t h (.inl rfl)
              | step h h' => exact key _ h (.inr h')
            · intro hl
              cases hl with
              | empty hr =>
                obtain ⟨ps', e', hk'⟩ := hr
                rw [e] at e'
                cases e'
                exact (hcs _ (List.mem_of_getElem? hk')).1 rfl
              | left hr hB =>
                obtain ⟨ps', e', hk'⟩ := hr
                rw [e] at e'
                cases e'
                exact (hcs _ (List.mem_of_getElem? hk')).2.nil _ _ rfl hB
            · intro hn
              obtain ⟨p, hp, hne⟩ := hn s ps e
              exact (hcs p hp).2.ne hn hne
          refine ⟨fun x hx => ?_, hcv⟩
          by_cases hxs : x = s
          · subst hxs; simp only [upd_same]; exact .inr hcv
          · simp only [upd_ne _ _ hxs]
            rcases hi1 x hx with (h | h) | h
            · exact .inl h
            · exact absurd h hxs
            · exact .inr h

theorem ntLoop_spec (hc : Closed ln g) {n} (hn : ln < n) : ∀ (l : List Nat) st,
    (∀ s ∈ l, g.prods s ≠ none) → Sound g ln st →
    ∃ st', ntLoop ln g.prods n st l = .ok st' ∧ Mono st st' ∧ (∀ s ∈ l, st'.done s = true) ∧
      Sound g ln st' ∧ (g.ScanAcyclic → Inv g (fun _ => False) st → Inv g (fun _ => False) st') := by
  intro l
  induction l with
  | nil => intro st _ hs; exact ⟨st, rfl, .refl _, by simp, hs, fun _ h => h⟩
  | cons s l ih =>
    intro st hl hs
    obtain ⟨ps, hps⟩ := Option.ne_none_iff_exists'.1 (hl s (by simp))
    have hf : (free ln st).card < n :=
      Nat.lt_of_le_of_lt ((Finset.card_filter_le _ _).trans (by simp)) hn
    obtain ⟨st1, fs, nl, e1, m1, hd1, hs1, -, hc1⟩ := firsts_spec hc n st s (hc.nt s ps hps)
      (hl s (by simp)) hf hs
    obtain ⟨st2, e2, m2, hd2, hs2, hc2⟩ := ih st1 (fun s hs => hl s (by simp [hs])) hs1
    refine ⟨st2, by simp [ntLoop, e1, e2], m1.trans m2, ?_, hs2, ?_⟩
    · intro x hx
      rcases List.mem_cons.1 hx with rfl | hx
      · exact m2.done _ hd1
      · exact hd2 x hx
    · intro ha hi
      exact hc2 ha (hc1 ha _ hi (by simp)).1

/-! ### The inverted table -/

theorem addFirsts_spec {ln symbol : Nat} : ∀ (xs : List Nat) f, (∀ x ∈ xs, x < ln) →
    ∃ f', addFirsts ln symbol f xs = .ok f' ∧
      (∀ t, (∃ m, f' t = some m) ↔ (∃ m, f t = some m) ∨ t ∈ xs) ∧
      ∀ t s, (∃ m, f' t = some m ∧ m s = true) ↔
        (∃ m, f t = some m ∧ m s = true) ∨ (s = symbol ∧ t ∈ xs) := by
  intro xs
  induction xs with
  | nil => intro f _; exact ⟨f, rfl, by simp, by simp⟩
  | cons x xs ih =>
    intro f hx
    obtain ⟨f', e, h1, h2⟩ := ih (upd f x (some (upd ((f x).getD fun _ => false) symbol true)))
      fun y hy => hx y (by simp [hy])
    refine ⟨f', by simp [addFirsts, addFirst, hx x (by simp), e], ?_, ?_⟩
    · intro t
      rw [h1]
      by_cases ht : t = x
      · subst ht; simp
      · simp [upd_ne _ _ ht, ht]
    · intro t s
      rw [h2]
      by_cases ht : t = x
      · subst ht
        simp only [upd_same, Option.some.injEq, exists_eq_left', List.mem_cons, true_or, and_true]
        by_cases hss : s = symbol
        · subst hss; simp
        · rw [upd_ne _ _ hss]
          cases f t <;> simp [hss]
      · simp [upd_ne _ _ ht, ht]

theorem invert_spec {ln : Nat} {n2f : Nat → List Nat} : ∀ (ss : List Nat) f,
    (∀ s ∈ ss, ∀ x ∈ n2f s, x < ln) →
    ∃ f', invert ln n2f f ss = .ok f' ∧
      (∀ t, (∃ m, f' t = some m) ↔ (∃ m, f t = some m) ∨ ∃ s ∈ ss, t ∈ n2f s) ∧
      ∀ t s, (∃ m, f' t = some m ∧ m s = true) ↔
        (∃ m, f t = some m ∧ m s = true) ∨ (s ∈ ss ∧ t ∈ n2f s) := by
  intro ss
  induction ss with
  | nil => intro f _; exact ⟨f, rfl, by simp, by simp⟩
  | cons x ss ih =>
    intro f hx
    obtain ⟨f1, e1, h1, h2⟩ := addFirsts_spec (symbol := x) (n2f x) f (hx x (by simp))
    obtain ⟨f2, e2, h3, h4⟩ := ih f1 fun y hy => hx y (by simp [hy])
    refine ⟨f2, by simp [invert, e1, e2], ?_, ?_⟩
    · intro t
      rw [h3, h1]
      simp [or_assoc]
    · intro t s
      rw [h4, h2]
      simp only [List.mem_cons]
      constructor
      · rintro ((h | ⟨rfl, h⟩) | ⟨h, h'⟩)
        · exact .inl h
        · exact .inr ⟨.inl rfl, h⟩
        · exact .inr ⟨.inr h, h'⟩
      · rintro (h | ⟨rfl | h, h'⟩)
        · exact .inl (.inl h)
        · exact .inl (.inr ⟨rfl, h'⟩)
        · exact .inr ⟨h, h'⟩

end Verif.Analyze
