import Verif.Model.Helpers
/-
C05–C08: iterators, LexErrors, Run.
-/
namespace Verif.Props.Helpers
open Verif Verif.Helpers

/-- Iterator after `k` calls to `Next`. -/
def nextN {σ : Type} (next : σ → σ × Bool) (it : σ) : Nat → σ
  | 0 => it
  | k + 1 => (next (nextN next it k)).1

private theorem iter_state {β : Type} (p : List β) (k : Nat) (hk : k < p.length) :
    (nextN PIter.next (iter (some (p.map some))) (k + 1)).ln = p.length ∧
    (nextN PIter.next (iter (some (p.map some))) (k + 1)).idx = k ∧
    (nextN PIter.next (iter (some (p.map some))) (k + 1)).prod = some (p.map some) ∧
    (nextN PIter.next (iter (some (p.map some))) (k + 1)).cur = p[k]? := by
  induction k with
  | zero =>
    have : ¬ p.length = 0 := by omega
    have h2 : ¬ (0 ≥ p.length) := by omega
    have h0 : p ≠ [] := by intro e; simp [e] at hk
    simp [nextN, iter, PIter.next, PIter.fetch, h0]
    cases p[0]? <;> rfl
  | succ k ih =>
    obtain ⟨h1, h2, h3, h4⟩ := ih (by omega)
    rw [nextN]
    generalize nextN PIter.next (iter (some (p.map some))) (k + 1) = it at *
    have : ¬ p.length = 0 := by omega
    have hk' : ¬ (k + 1 ≥ p.length) := by omega
    have h0 : p ≠ [] := by intro e; simp [e] at hk
    simp [PIter.next, PIter.fetch, h1, h2, h3, h0, hk']
    cases p[k + 1]? <;> rfl

private theorem iter_end {β : Type} (p : List β) (k : Nat) (hk : p.length ≤ k) :
    (nextN PIter.next (iter (some (p.map some))) (k + 1)).ln = p.length ∧
    (p.length ≠ 0 → k ≤ (nextN PIter.next (iter (some (p.map some))) (k + 1)).idx) ∧
    (nextN PIter.next (iter (some (p.map some))) (k + 1)).prod = some (p.map some) := by
  induction k with
  | zero =>
    have : p.length = 0 := by omega
    simp [nextN, iter, PIter.next, PIter.fetch, this]
  | succ k ih =>
    by_cases hk' : p.length ≤ k
    · obtain ⟨h1, h2, h3⟩ := ih hk'
      rw [nextN]
      generalize nextN PIter.next (iter (some (p.map some))) (k + 1) = it at *
      by_cases h0 : p.length = 0
      · have : p = [] := List.length_eq_zero_iff.1 h0
        subst this
        simp [PIter.next, h1, h3]
      · have := h2 h0
        have h0' : p ≠ [] := by intro e; simp [e] at h0
        have hge : it.idx + 1 ≥ p.length := by omega
        simp [PIter.next, PIter.fetch, h1, h0', hge, h3]
        omega
    · obtain ⟨h1, h2, h3, h4⟩ := iter_state p k (by omega)
      rw [nextN]
      generalize nextN PIter.next (iter (some (p.map some))) (k + 1) = it at *
      have h0' : p ≠ [] := by intro e; simp [e] at hk'
      have hge : k + 1 ≥ p.length := by omega
      simp [PIter.next, PIter.fetch, h1, h2, h0', hge, h3]

/-- C05: on a production with symbols `p`, the `(k+1)`-st call of `Next` returns true iff
`k < p.length`, and then the iterator shows symbol `k` with `Idx = k`. Every later call is false. -/
theorem C05_production_iterator {β : Type} (p : List β) (k : Nat) :
    ((nextN PIter.next (iter (some (p.map some))) k).next).2 = decide (k < p.length) ∧
    (k < p.length →
      ((nextN PIter.next (iter (some (p.map some))) k).next).1.cur = p[k]? ∧
      ((nextN PIter.next (iter (some (p.map some))) k).next).1.idx = k) := by
  constructor
  · by_cases hk : k < p.length
    · simp only [hk, decide_true]
      cases k with
      | zero =>
        have h0' : p ≠ [] := by intro e; simp [e] at hk
        simp [nextN, iter, PIter.next, PIter.fetch, h0', hk]
      | succ k =>
        obtain ⟨h1, h2, h3, h4⟩ := iter_state p k (by omega)
        generalize nextN PIter.next (iter (some (p.map some))) (k + 1) = it at *
        have h0' : p ≠ [] := by intro e; simp [e] at hk
        have hk' : ¬ (k + 1 ≥ p.length) := by omega
        simp [PIter.next, PIter.fetch, h1, h2, h3, h0', hk']
        rw [List.getElem?_eq_getElem hk]; rfl
    · simp only [hk, decide_false]
      cases k with
      | zero =>
        have h0' : p = [] := List.length_eq_zero_iff.1 (by omega)
        simp [nextN, iter, PIter.next, h0']
      | succ k =>
        by_cases h0 : p.length = 0
        · obtain ⟨h1, h2, h3⟩ := iter_end p k (by omega)
          have : p = [] := List.length_eq_zero_iff.1 h0
          subst this
          simp only [List.map_nil] at *
          generalize nextN PIter.next (iter (some [])) (k + 1) = it at *
          simp [PIter.next, h1, h3]
        · have h0' : p ≠ [] := by intro e; simp [e] at h0
          have hge : (nextN PIter.next (iter (some (p.map some))) (k + 1)).ln = p.length ∧
              k ≤ (nextN PIter.next (iter (some (p.map some))) (k + 1)).idx := by
            by_cases hk' : p.length ≤ k
            · obtain ⟨h1, h2, h3⟩ := iter_end p k hk'
              exact ⟨h1, h2 h0⟩
            · obtain ⟨h1, h2, h3, h4⟩ := iter_state p k (by omega)
              exact ⟨h1, by omega⟩
          generalize nextN PIter.next (iter (some (p.map some))) (k + 1) = it at *
          have hge' : it.idx + 1 ≥ p.length := by omega
          simp [PIter.next, PIter.fetch, hge.1, h0', hge']
  · intro hk
    have := iter_state p k hk
    rw [nextN] at this
    exact ⟨this.2.2.2, this.2.1⟩

private theorem iters_state {π : Type} (p : List π) (k : Nat) (hk : k < p.length) :
    (nextN PsIter.next (iters (some p)) (k + 1)).ln = p.length ∧
    (nextN PsIter.next (iters (some p)) (k + 1)).idx = k ∧
    (nextN PsIter.next (iters (some p)) (k + 1)).prods = some p ∧
    (nextN PsIter.next (iters (some p)) (k + 1)).cur = p[k]? := by
  induction k with
  | zero =>
    have h0 : p ≠ [] := by intro e; simp [e] at hk
    simp [nextN, iters, PsIter.next, PsIter.fetch, h0]
  | succ k ih =>
    obtain ⟨h1, h2, h3, h4⟩ := ih (by omega)
    rw [nextN]
    generalize nextN PsIter.next (iters (some p)) (k + 1) = it at *
    have hk' : ¬ (k + 1 ≥ p.length) := by omega
    have h0 : p ≠ [] := by intro e; simp [e] at hk
    simp [PsIter.next, PsIter.fetch, h1, h2, h3, h0, hk']

private theorem iters_end {π : Type} (p : List π) (k : Nat) (hk : p.length ≤ k) :
    (nextN PsIter.next (iters (some p)) (k + 1)).ln = p.length ∧
    (p.length ≠ 0 → k ≤ (nextN PsIter.next (iters (some p)) (k + 1)).idx) ∧
    (nextN PsIter.next (iters (some p)) (k + 1)).prods = some p := by
  induction k with
  | zero =>
    have : p = [] := List.length_eq_zero_iff.1 (by omega)
    simp [nextN, iters, PsIter.next, this]
  | succ k ih =>
    by_cases hk' : p.length ≤ k
    · obtain ⟨h1, h2, h3⟩ := ih hk'
      rw [nextN]
      generalize nextN PsIter.next (iters (some p)) (k + 1) = it at *
      by_cases h0 : p.length = 0
      · have : p = [] := List.length_eq_zero_iff.1 h0
        subst this
        simp [PsIter.next, h1, h3]
      · have := h2 h0
        have h0' : p ≠ [] := by intro e; simp [e] at h0
        have hge : it.idx + 1 ≥ p.length := by omega
        simp [PsIter.next, PsIter.fetch, h1, h0', hge, h3]
        omega
    · obtain ⟨h1, h2, h3, h4⟩ := iters_state p k (by omega)
      rw [nextN]
      generalize nextN PsIter.next (iters (some p)) (k + 1) = it at *
      have h0' : p ≠ [] := by intro e; simp [e] at hk'
      have hge : k + 1 ≥ p.length := by omega
      simp [PsIter.next, PsIter.fetch, h1, h2, h0', hge, h3]

/-- C05 for the iterator over productions. -/
theorem C05_productions_iterator {π : Type} (p : List π) (k : Nat) :
    ((nextN PsIter.next (iters (some p)) k).next).2 = decide (k < p.length) ∧
    (k < p.length →
      ((nextN PsIter.next (iters (some p)) k).next).1.cur = p[k]? ∧
      ((nextN PsIter.next (iters (some p)) k).next).1.idx = k) := by
  constructor
  · by_cases hk : k < p.length
    · simp only [hk, decide_true]
      cases k with
      | zero =>
        have h0' : p ≠ [] := by intro e; simp [e] at hk
        simp [nextN, iters, PsIter.next, PsIter.fetch, h0', hk]
      | succ k =>
        obtain ⟨h1, h2, h3, h4⟩ := iters_state p k (by omega)
        generalize nextN PsIter.next (iters (some p)) (k + 1) = it at *
        have h0' : p ≠ [] := by intro e; simp [e] at hk
        have hk' : ¬ (k + 1 ≥ p.length) := by omega
        simp [PsIter.next, PsIter.fetch, h1, h2, h3, h0', hk']
    · simp only [hk, decide_false]
      cases k with
      | zero =>
        have h0' : p = [] := List.length_eq_zero_iff.1 (by omega)
        simp [nextN, iters, PsIter.next, h0']
      | succ k =>
        by_cases h0 : p.length = 0
        · obtain ⟨h1, h2, h3⟩ := iters_end p k (by omega)
          have : p = [] := List.length_eq_zero_iff.1 h0
          subst this
          generalize nextN PsIter.next (iters (some [])) (k + 1) = it at *
          simp [PsIter.next, h1, h3]
        · have h0' : p ≠ [] := by intro e; simp [e] at h0
          have hge : (nextN PsIter.next (iters (some p)) (k + 1)).ln = p.length ∧
              k ≤ (nextN PsIter.next (iters (some p)) (k + 1)).idx := by
            by_cases hk' : p.length ≤ k
            · obtain ⟨h1, h2, h3⟩ := iters_end p k hk'
              exact ⟨h1, h2 h0⟩
            · obtain ⟨h1, h2, h3, h4⟩ := iters_state p k (by omega)
              exact ⟨h1, by omega⟩
          generalize nextN PsIter.next (iters (some p)) (k + 1) = it at *
          have hge' : it.idx + 1 ≥ p.length := by omega
          simp [PsIter.next, PsIter.fetch, hge.1, h0', hge']
  · intro hk
    have := iters_state p k hk
    rw [nextN] at this
    exact ⟨this.2.2.2, this.2.1⟩

/-- C05: a nil production (or nil productions) yields nothing, ever. -/
theorem C05_nil_iterators {β π : Type} (k : Nat) :
    ((nextN PIter.next (iter (β := β) none) k).next).2 = false ∧
    ((nextN PsIter.next (iters (π := π) none) k).next).2 = false := by
  have h1 : nextN PIter.next (iter (β := β) none) k = iter none := by
    induction k with
    | zero => rfl
    | succ k ih => rw [nextN, ih]; rfl
  have h2 : nextN PsIter.next (iters (π := π) none) k = iters none := by
    clear h1
    induction k with
    | zero => rfl
    | succ k ih => rw [nextN, ih]; rfl
  rw [h1, h2]; exact ⟨rfl, rfl⟩

example : ((nextN PIter.next (iter (some ([7, 8, 9].map some))) 2).next).1.cur = some 9 := by decide
example : ((nextN PIter.next (iter (some ([7, 8, 9].map some))) 5).next).2 = false := by decide

/-- C08: `LexErrors` returns exactly the lexemes that are errors, in order. -/
theorem C08_lexErrors {L E : Type} (asErr : L → Option E) (ls : List L) :
    (lexErrors asErr ls).map some = (ls.map asErr).filter Option.isSome ∧
    (∀ e, e ∈ lexErrors asErr ls ↔ ∃ l ∈ ls, asErr l = some e) ∧
    (lexErrors asErr ls = [] ↔ ∀ l ∈ ls, asErr l = none) := by
  induction ls with
  | nil => simp [lexErrors]
  | cons l ls ih =>
    obtain ⟨h1, h2, h3⟩ := ih
    unfold lexErrors
    cases h : asErr l with
    | none => simp [h, h1, h2, h3]
    | some e =>
      simp only [List.map_cons, h, List.filter_cons_of_pos, Option.isSome_some, h1, true_and]
      constructor
      · intro e'; simp [h2, h]; constructor <;> (rintro (h | h) <;> simp_all)
      · simp [h]

/-- Specification of the outcome of a run, stage by stage. -/
inductive RunSpec {I L E T : Type} (asErr : L → Option E) (input : I) (lexer : I → Option (List L))
    (parser : List L → Option T) (reducers : List (T → Option T)) : RunErr E ⊕ T → Prop
  /-- the lexer returned nil -/
  | noLex : lexer input = none → RunSpec asErr input lexer parser reducers (.inl .couldNotLex)
  /-- `l` is the first lexeme that is an error -/
  | lexErr {pre l post e} : lexer input = some (pre ++ l :: post) → (∀ x ∈ pre, asErr x = none) →
      asErr l = some e → RunSpec asErr input lexer parser reducers (.inl (.lexErr e))
  | noParse {ls} : lexer input = some ls → (∀ x ∈ ls, asErr x = none) → parser ls = none →
      RunSpec asErr input lexer parser reducers (.inl .couldNotParse)
  /-- some reducer, given the result of all earlier ones, returns nil -/
  | noReduce {ls t} {pre : List (T → Option T)} {r post t'} : lexer input = some ls →
      (∀ x ∈ ls, asErr x = none) → parser ls = some t → reducers = pre ++ r :: post →
      pre.foldlM (fun t r => r t) t = some t' → r t' = none →
      RunSpec asErr input lexer parser reducers (.inl .couldNotReduce)
  /-- every stage succeeded: the tree went through all reducers left to right -/
  | done {ls t t'} : lexer input = some ls → (∀ x ∈ ls, asErr x = none) → parser ls = some t →
      reducers.foldlM (fun t r => r t) t = some t' →
      RunSpec asErr input lexer parser reducers (.inr t')

private theorem runReducers_eq {T : Type} (rs : List (Option (T → Option T))) (t : T) :
    runReducers rs t = (rs.filterMap id).foldlM (fun t r => r t) t := by
  induction rs generalizing t with
  | nil => rfl
  | cons r rs ih =>
    cases r with
    | none => simp [runReducers, ih]
    | some r =>
      simp only [runReducers, List.filterMap_cons, id_eq, List.foldlM_cons]
      cases r t with
      | none => rfl
      | some t' => exact ih t'

private theorem foldlM_none {T : Type} (rs : List (T → Option T)) (t : T)
    (h : rs.foldlM (fun t r => r t) t = none) :
    ∃ pre r post t', rs = pre ++ r :: post ∧ pre.foldlM (fun t r => r t) t = some t' ∧ r t' = none := by
  induction rs generalizing t with
  | nil => simp at h
  | cons r rs ih =>
    rw [List.foldlM_cons] at h
    cases hr : r t with
    | none => exact ⟨[], r, rs, t, rfl, rfl, hr⟩
    | some t1 =>
      rw [hr] at h
      obtain ⟨pre, r', post, t', e, h1, h2⟩ := ih t1 h
      refine ⟨r :: pre, r', post, t', by simp [e], ?_, h2⟩
      rw [List.foldlM_cons, hr]; exact h1

private theorem lexErrors_cons {L E : Type} (asErr : L → Option E) (ls : List L) (e : E) (es)
    (h : lexErrors asErr ls = e :: es) :
    ∃ pre l post, ls = pre ++ l :: post ∧ (∀ x ∈ pre, asErr x = none) ∧ asErr l = some e := by
  induction ls with
  | nil => simp [lexErrors] at h
  | cons l ls ih =>
    unfold lexErrors at h
    cases hl : asErr l with
    | some e' =>
      rw [hl] at h
      simp only [List.cons.injEq] at h
      exact ⟨[], l, ls, rfl, by simp, by rw [hl, h.1]⟩
    | none =>
      rw [hl] at h
      obtain ⟨pre, l', post, e1, h1, h2⟩ := ih h
      refine ⟨l :: pre, l', post, by simp [e1], ?_, h2⟩
      intro x hx
      rcases List.mem_cons.1 hx with rfl | hx
      · exact hl
      · exact h1 x hx

/-- C06/C07: the result of `Run` is exactly the one described by the stage specification (for the
non-nil reducers in argument order), for arbitrary lexers, parsers and reducers. -/
theorem C06_run_spec {I L E T : Type} (asErr : L → Option E) (input : I)
    (lexer : I → Option (List L)) (parser : List L → Option T)
    (reducers : List (Option (T → Option T))) :
    RunSpec asErr input lexer parser (reducers.filterMap id)
      (run asErr input lexer parser reducers) := by
  cases hl : lexer input with
  | none => simpa [run, hl] using RunSpec.noLex hl
  | some ls =>
    cases he : lexErrors asErr ls with
    | cons e es =>
      obtain ⟨pre, l, post, e1, h1, h2⟩ := lexErrors_cons asErr ls e es he
      simpa [run, hl, he] using RunSpec.lexErr (e1 ▸ hl) h1 h2
    | nil =>
      have hno := (C08_lexErrors asErr ls).2.2.1 he
      cases hp : parser ls with
      | none => simpa [run, hl, he, hp] using RunSpec.noParse hl hno hp
      | some t =>
        cases hr : runReducers reducers t with
        | some t' =>
          simp only [run, hl, he, hp, hr]
          rw [runReducers_eq] at hr
          exact .done hl hno hp hr
        | none =>
          simp only [run, hl, he, hp, hr]
          rw [runReducers_eq] at hr
          obtain ⟨pre, r, post, t', e, h1, h2⟩ := foldlM_none _ _ hr
          exact .noReduce hl hno hp e h1 h2

private theorem foldlM_split {T : Type} (pre : List (T → Option T)) (r : T → Option T) (post t t')
    (h1 : pre.foldlM (fun t r => r t) t = some t') (h2 : r t' = none) :
    (pre ++ r :: post).foldlM (fun t r => r t) t = none := by
  rw [List.foldlM_append, h1, Option.bind_eq_bind, Option.bind_some, List.foldlM_cons, h2]; rfl

private theorem lexErrors_first {L E : Type} (asErr : L → Option E) (pre l post e)
    (h1 : ∀ x ∈ pre, asErr x = none) (h2 : asErr l = some e) :
    ∃ es, lexErrors asErr (pre ++ l :: post) = e :: es := by
  induction pre with
  | nil => exact ⟨lexErrors asErr post, by simp [lexErrors, h2]⟩
  | cons p ps ih =>
    obtain ⟨es, h⟩ := ih (fun x hx => h1 x (by simp [hx]))
    exact ⟨es, by simp [lexErrors, h1 p (by simp), h]⟩

/-- C06: the specification determines the result, so each error is returned *iff* its stage
failed and no earlier one did. -/
theorem C06_spec_deterministic {I L E T : Type} (asErr : L → Option E) (input : I)
    (lexer : I → Option (List L)) (parser : List L → Option T)
    (reducers : List (Option (T → Option T))) (res : RunErr E ⊕ T) :
    RunSpec asErr input lexer parser (reducers.filterMap id) res ↔
      run asErr input lexer parser reducers = res := by
  constructor
  · intro h
    cases h with
    | noLex h => simp [run, h]
    | @lexErr pre l post e h1 h2 h3 =>
      obtain ⟨es, h⟩ := lexErrors_first asErr pre l post e h2 h3
      simp [run, h1, h]
    | noParse h1 h2 h3 => simp [run, h1, (C08_lexErrors asErr _).2.2.2 h2, h3]
    | noReduce h1 h2 h3 h4 h5 h6 =>
      simp [run, h1, (C08_lexErrors asErr _).2.2.2 h2, h3, runReducers_eq, h4,
        foldlM_split _ _ _ _ _ h5 h6]
    | done h1 h2 h3 h4 =>
      simp [run, h1, (C08_lexErrors asErr _).2.2.2 h2, h3, runReducers_eq, h4]
  · rintro rfl; exact C06_run_spec ..

/-- C07: nil reducers change nothing, wherever they are in the argument list. -/
theorem C07_nil_reducers {I L E T : Type} (asErr : L → Option E) (input : I)
    (lexer : I → Option (List L)) (parser : List L → Option T)
    (rs rs' : List (Option (T → Option T))) (h : rs.filterMap id = rs'.filterMap id) :
    run asErr input lexer parser rs = run asErr input lexer parser rs' := by
  unfold run
  simp [runReducers_eq, h]

/-- C07: running with reducers `rs ++ rs'` is running with `rs` and then passing the tree through
`rs'` (with failures reported as reduction failures). -/
theorem C07_reducers_compose {I L E T : Type} (asErr : L → Option E) (input : I)
    (lexer : I → Option (List L)) (parser : List L → Option T)
    (rs rs' : List (Option (T → Option T))) :
    run asErr input lexer parser (rs ++ rs') =
      match run asErr input lexer parser rs with
      | .inl e => .inl e
      | .inr t => run asErr t (fun _ => some []) (fun _ => some t) rs' := by
  unfold run
  cases lexer input with
  | none => rfl
  | some ls =>
    dsimp only
    cases lexErrors asErr ls with
    | cons e es => rfl
    | nil =>
      dsimp only
      cases parser ls with
      | none => rfl
      | some t =>
        dsimp only
        simp only [runReducers_eq, List.filterMap_append, List.foldlM_append, lexErrors]
        cases h : List.foldlM (fun t r => r t) t (rs.filterMap id) with
        | none => rfl
        | some t' => rfl

/-- C07: a `Runner` behaves as `Run` on the parts it was built from. -/
theorem C07_runner {I L E T : Type} (asErr : L → Option E) (input : I)
    (lexer : I → Option (List L)) (parser : List L → Option T)
    (rs : List (Option (T → Option T))) :
    (newRunner lexer parser rs).run asErr input = run asErr input lexer parser rs := rfl

/-- A run in which everything happens: two reducers with a nil one between them. -/
example : run (fun l : Nat => if l > 100 then some l else none) [1, 2, 3] some
    (fun ls => some ls.length) [some (fun t => some (t * 10)), none, some (fun t => some (t + 1))]
    = .inr 31 := by decide
example : run (fun l : Nat => if l > 100 then some l else none) [1, 200, 300] some
    (fun ls => some ls.length) [] = .inl (.lexErr 200) := by decide
example : run (fun l : Nat => if l > 100 then some l else none) [1] some
    (fun ls => some ls.length) [some (fun _ => none), some some] = .inl .couldNotReduce := by decide

end Verif.Props.Helpers
