import Verif.Model.StackLexerSearch
import Verif.Proofs.StackLexer
import Verif.Spec.Searches
/-
Lemmas for C97: recording the searches changes nothing else, and how many there are.
-/
namespace Verif.StackLexer
open Verif Verif.SetSymbol
open Verif.SimpleLexer (Bytes Lx countNl slice insertLx Search)

theorem popS_fst (b : Bytes) (i : Nat) (op : Op) : (popS b i op).bind (fun r => .ok r.1) = pop b i op := by
  unfold popS pop
  simp only
  cases op.stack[op.stack.length - i]? <;> rfl

theorem stopS_fst (b : Bytes) (op : Op) : (stopStepS b op).bind (fun r => .ok r.1) = stopStep b op := by
  unfold stopStepS stopStep
  rw [← popS_fst]
  split
  · split <;> rfl
  · cases popS b 1 op <;> rfl

theorem moveS_fst (lexers : Bytes → Option Sub) (b : Bytes) (r : Rule) (op : Op) :
    (moveStepS lexers b r op).bind (fun r => .ok r.1) = moveStep lexers b r op := by
  unfold moveStepS moveStep
  rw [← popS_fst]
  split
  · rfl
  · split
    · cases popS b r.pop op <;> rfl
    · split
      · cases lexers r.push <;> rfl
      · rfl

theorem bodyS_fst (cmp : Int → Int → Int → Int → Bool) (lexers : Bytes → Option Sub) (ek : Nat) (b : Bytes) (op : Op) :
    (bodyS cmp lexers ek b op).bind (fun r => .ok r.1) = body cmp lexers ek b op := by
  unfold bodyS body
  cases choose cmp op.cur none op.next with
  | none => exact stopS_fst b op
  | some c =>
    obtain ⟨r, loc⟩ := c
    simp only
    cases value b r loc with
    | panic => rfl
    | fuel => rfl
    | ok val =>
      simp only [Out.bind_ok]
      split
      · exact stopS_fst b _
      · exact moveS_fst lexers b r _

theorem loopS_fst (cmp : Int → Int → Int → Int → Bool) (lexers : Bytes → Option Sub) (ek : Nat) (b : Bytes) : ∀ n op,
    (loopS cmp lexers ek b n op).bind (fun r => .ok r.1) = loop cmp lexers ek b n op
  | 0, _ => rfl
  | n + 1, op => by
    rw [loopS, loop, ← bodyS_fst]
    cases bodyS cmp lexers ek b op with
    | panic => rfl
    | fuel => rfl
    | ok x =>
      obtain ⟨x, ss⟩ := x
      cases x with
      | done op => rfl
      | more op =>
        simp only [Out.bind_ok]
        rw [← loopS_fst cmp lexers ek b n]
        cases loopS cmp lexers ek b n op <;> rfl

theorem lexS_fst (n : Nat) (l : Lexer) (b : Bytes) : (lexS n l b).bind (fun r => .ok r.1) = lex n l b := by
  unfold lexS lex
  cases l.start with
  | none => rfl
  | some s =>
    simp only
    rw [← loopS_fst]
    simp only [populateNextS]
    cases loopS l.compare l.lexers (str l.set l.error).2 b n (populateNext b
      { sub := s, stack := [], next := [], lxs := if l.startKind ≠ [] then [insertLx l.startKind l.startVal] else [], errFlag := false,
        errStart := 0, cur := 0, lines := 1 }) <;> rfl

/-! ### How many there are -/

/-- A search inside of the input. -/
def Inside (len : Nat) (s : Search) : Prop := s.start ≤ len ∧ ∀ i j, s.found = some (i, j) → s.start ≤ i ∧ i ≤ j ∧ j ≤ len

/-- No sub-lexer that is at hand has more than `R` rules, and the matches are inside of the input. -/
structure Small (R : Nat) (b : Bytes) (op : Op) : Prop where
  next : op.next.length ≤ R
  stack : ∀ s ∈ op.stack, s.rules.length ≤ R
  sub : op.sub.rules.length ≤ R
  wf : ∀ x ∈ op.next, ∀ loc, x.2 = some loc → loc.a ≤ loc.e ∧ loc.off + loc.e ≤ b.length

/-- What can still happen: bytes to go, twice, and sub-lexers to leave. -/
def togo (b : Bytes) (op : Op) : Nat := 2 * (b.length - op.cur) + op.stack.length

theorem findFrom_in {b : Bytes} {cur : Nat} {r : Rule} (hc : cur ≤ b.length) {loc : Loc} (h : findFrom b cur r = some loc) :
    loc.off = cur ∧ loc.a ≤ loc.e ∧ loc.off + loc.e ≤ b.length := by
  unfold findFrom at h
  cases hf : r.re.find (b.drop cur) with
  | none => rw [hf] at h; cases h
  | some x =>
    obtain ⟨x, y, g⟩ := x
    rw [hf] at h
    cases h
    have := r.re.bound _ _ _ _ hf
    have e : (b.drop cur).length = b.length - cur := List.length_drop
    refine ⟨rfl, this.1, ?_⟩
    show cur + y ≤ List.length b
    have h2 := this.2
    rw [e] at h2
    clear e this
    omega

theorem searchOf_inside {b : Bytes} {cur : Nat} (hc : cur ≤ b.length) (r : Rule) : Inside b.length (searchOf cur (findFrom b cur r)) := by
  refine ⟨hc, ?_⟩
  intro i j h
  unfold searchOf at h
  cases hf : findFrom b cur r with
  | none => rw [hf] at h; cases h
  | some loc =>
    rw [hf] at h
    cases h
    obtain ⟨h1, h2, h3⟩ := findFrom_in hc hf
    simp only [searchOf]
    omega

theorem flatMap_le {α β : Type} (f : α → List β) (h : ∀ x, (f x).length ≤ 1) : ∀ l : List α, (l.flatMap f).length ≤ l.length
  | [] => by simp
  | x :: l => by
    have := flatMap_le f h l
    have := h x
    simp only [List.flatMap_cons, List.length_append, List.length_cons]
    omega

theorem populate_small {R : Nat} {b : Bytes} {op : Op} (hc : op.cur ≤ b.length) (hs : ∀ s ∈ op.stack, s.rules.length ≤ R)
    (hr : op.sub.rules.length ≤ R) : Small R b (populateNextS b op).1 ∧ (populateNextS b op).2.length ≤ R ∧
      ∀ s ∈ (populateNextS b op).2, Inside b.length s := by
  refine ⟨⟨?_, hs, hr, ?_⟩, ?_, ?_⟩
  · simp only [populateNextS, populateNext, List.length_map]
    exact hr
  · intro x hx loc h
    simp only [populateNextS, populateNext, List.mem_map] at hx
    obtain ⟨r, -, rfl⟩ := hx
    cases r with
    | none => cases h
    | some r => exact (findFrom_in hc h).2
  · refine Nat.le_trans (flatMap_le _ ?_ _) hr
    intro r
    cases r <;> simp
  · intro s h
    simp only [populateNextS, List.mem_flatMap] at h
    obtain ⟨r, -, h⟩ := h
    cases r with
    | none => simp at h
    | some r =>
      rw [List.mem_singleton] at h
      rw [h]
      exact searchOf_inside hc r

theorem update_small {R : Nat} {b : Bytes} {op : Op} (hc : op.cur ≤ b.length) (w : Small R b op) :
    Small R b (updateNextS b op).1 ∧ (updateNextS b op).2.length ≤ R ∧ ∀ s ∈ (updateNextS b op).2, Inside b.length s := by
  refine ⟨⟨?_, w.stack, w.sub, ?_⟩, ?_, ?_⟩
  · simp only [updateNextS, updateNext, List.length_map]
    exact w.next
  · intro x hx loc h
    simp only [updateNextS, updateNext, List.mem_map] at hx
    obtain ⟨y, hy, rfl⟩ := hx
    unfold refind at h
    split at h
    · split at h
      · exact (findFrom_in hc h).2
      · exact w.wf _ hy loc h
    · exact w.wf _ hy loc h
  · refine Nat.le_trans (flatMap_le _ ?_ _) w.next
    intro x
    unfold refindS
    split
    · split <;> simp
    · simp
  · intro s h
    simp only [updateNextS, List.mem_flatMap] at h
    obtain ⟨x, -, h⟩ := h
    unfold refindS at h
    split at h
    · split at h
      · rw [List.mem_singleton] at h
        rw [h]
        exact searchOf_inside hc _
      · simp at h
    · simp at h

/-- What one round does to the searches and to what is left. -/
def Fine (R : Nat) (b : Bytes) (before : Nat) (x : Next × List Search) : Prop :=
  (∀ s ∈ x.2, Inside b.length s) ∧
  match x.1 with
  | .done _ => x.2 = []
  | .more op => x.2.length ≤ R ∧ Small R b op ∧ op.cur < b.length ∧ togo b op < before

theorem popS_fine {R : Nat} {b : Bytes} {i : Nat} {op : Op} (w : ∀ s ∈ op.stack, s.rules.length ≤ R) (hc : op.cur < b.length)
    {r : Op × List Search} (h : popS b i op = .ok r) : Fine R b (togo b op) (.more r.1, r.2) := by
  unfold popS at h
  simp only at h
  cases hs : op.stack[op.stack.length - i]? with
  | none => rw [hs] at h; cases h
  | some s =>
    rw [hs] at h
    cases h
    have hlt : op.stack.length - i < op.stack.length := by
      have := List.getElem?_eq_some_iff.1 hs
      exact this.1
    obtain ⟨h1, h2, h3⟩ := populate_small (R := R) (b := b) (op := { op with sub := s, stack := op.stack.take (op.stack.length - i) })
      (Nat.le_of_lt hc) (fun s hs => w s (List.mem_of_mem_take hs)) (w s (List.mem_of_getElem? hs))
    refine ⟨h3, h2, h1, hc, ?_⟩
    simp only [togo, populateNextS, populateNext, List.length_take]
    omega

theorem setError_parts (op : Op) : (setError op).next = op.next ∧ (setError op).stack = op.stack ∧ (setError op).sub = op.sub := by
  unfold setError
  split <;> exact ⟨rfl, rfl, rfl⟩

theorem checkError_parts (ek : Nat) (b : Bytes) (op : Op) : (checkError ek b op).next = op.next ∧
    (checkError ek b op).stack = op.stack ∧ (checkError ek b op).sub = op.sub := by
  unfold checkError
  split <;> exact ⟨rfl, rfl, rfl⟩

theorem stopS_fine {R : Nat} {b : Bytes} {op : Op} (w : Small R b op) (hc : op.cur < b.length ∨ op.stack = [])
    {x : Next × List Search} (h : stopStepS b op = .ok x) : Fine R b (togo b op) x := by
  obtain ⟨e1, e2, e3⟩ := setError_parts op
  unfold stopStepS at h
  split at h
  · split at h
    · cases h
      exact ⟨by simp, rfl⟩
    · rename_i hlt
      cases h
      refine ⟨by simp, by simp, ⟨?_, ?_, ?_, ?_⟩, by simp only; omega, ?_⟩
      · simp only [e1]; exact w.next
      · simp only [e2]; exact w.stack
      · simp only [e3]; exact w.sub
      · simp only [e1]; exact w.wf
      · simp only [togo, e2]
        omega
  · rename_i hne
    obtain ⟨r, h1, h2⟩ := Out.bind_eq_ok.1 h
    cases h2
    refine popS_fine w.stack ?_ h1
    rcases hc with hc | hc
    · exact hc
    · rw [hc] at hne; simp at hne

theorem Fine.mono {R : Nat} {b : Bytes} {i j : Nat} (h : i ≤ j) {x : Next × List Search} (hf : Fine R b i x) : Fine R b j x := by
  refine ⟨hf.1, ?_⟩
  have := hf.2
  split at this
  · exact this
  · exact ⟨this.1, this.2.1, this.2.2.1, Nat.lt_of_lt_of_le this.2.2.2 h⟩

theorem moveS_fine {R : Nat} {lexers : Bytes → Option Sub} (hl : ∀ x s, lexers x = some s → s.rules.length ≤ R) {b : Bytes} {r : Rule}
    {op : Op} (w : Small R b op) {x : Next × List Search} (h : moveStepS lexers b r op = .ok x) : Fine R b (togo b op + 2) x := by
  unfold moveStepS at h
  split at h
  · cases h
    exact ⟨by simp, rfl⟩
  · rename_i hlt
    have hc : op.cur < b.length := by omega
    split at h
    · obtain ⟨r, h1, h2⟩ := Out.bind_eq_ok.1 h
      cases h2
      exact (popS_fine w.stack hc h1).mono (by omega)
    · split at h
      · cases hs : lexers r.push with
        | none => rw [hs] at h; cases h
        | some s =>
          rw [hs] at h
          cases h
          obtain ⟨h1, h2, h3⟩ := populate_small (R := R) (b := b) (op := { op with stack := op.stack ++ [op.sub], sub := s })
            (Nat.le_of_lt hc) (by
              intro t ht
              rw [List.mem_append, List.mem_singleton] at ht
              rcases ht with ht | rfl
              · exact w.stack t ht
              · exact w.sub) (hl _ _ hs)
          refine ⟨h3, h2, h1, hc, ?_⟩
          simp only [togo, populateNextS, populateNext, List.length_append, List.length_singleton]
          omega
      · cases h
        obtain ⟨h1, h2, h3⟩ := update_small (Nat.le_of_lt hc) w
        refine ⟨h3, h2, h1, hc, ?_⟩
        simp only [togo, updateNextS, updateNext]
        omega

theorem bodyS_fine {R : Nat} {cmp : Int → Int → Int → Int → Bool} {lexers : Bytes → Option Sub} (hl : ∀ x s, lexers x = some s → s.rules.length ≤ R) {ek : Nat}
    {b : Bytes} {op : Op} (w : Small R b op) (hc : op.cur < b.length ∨ op.stack = []) {x : Next × List Search}
    (h : bodyS cmp lexers ek b op = .ok x) : Fine R b (togo b op) x := by
  unfold bodyS at h
  cases hch : choose cmp op.cur none op.next with
  | none =>
    rw [hch] at h
    exact stopS_fine w hc h
  | some c =>
    obtain ⟨r, loc⟩ := c
    rw [hch] at h
    simp only at h
    obtain ⟨val, -, h⟩ := Out.bind_eq_ok.1 h
    split at h
    · exact stopS_fine (R := R) (op := { op with lines := op.lines + countNl (slice b (loc.off + loc.a) (loc.off + loc.e)) }) ⟨w.next, w.stack, w.sub, w.wf⟩ hc h
    · rename_i hne
      have hm : (some r, some loc) ∈ op.next ∧ loc.a + loc.off = op.cur := by
        rcases choose_mem cmp op.cur op.next none r loc hch with h | h
        · cases h
        · exact h
      have hb := w.wf _ hm.1 loc rfl
      obtain ⟨e1, e2, e3⟩ := checkError_parts ek b { op with lines := op.lines + countNl (slice b (loc.off + loc.a) (loc.off + loc.e)) }
      refine (moveS_fine hl ⟨?_, ?_, ?_, ?_⟩ h).mono ?_
      · simp only [e1]; exact w.next
      · simp only [e2]; exact w.stack
      · simp only [e3]; exact w.sub
      · simp only [e1]; exact w.wf
      · simp only [togo, e2]
        omega

theorem loopS_sums {R : Nat} {cmp : Int → Int → Int → Int → Bool} {lexers : Bytes → Option Sub} (hl : ∀ x s, lexers x = some s → s.rules.length ≤ R) {ek : Nat}
    {b : Bytes} : ∀ n (op op' : Op) ss, Small R b op → (op.cur < b.length ∨ op.stack = []) → loopS cmp lexers ek b n op = .ok (op', ss) →
    ss.length ≤ R * togo b op ∧ ∀ s ∈ ss, Inside b.length s
  | 0, _, _, _, _, _, h => by cases h
  | n + 1, op, op', ss, w, hc, h => by
    rw [loopS] at h
    obtain ⟨⟨x, us⟩, h1, h2⟩ := Out.bind_eq_ok.1 h
    obtain ⟨f1, f2⟩ := bodyS_fine hl w hc h1
    cases x with
    | done op1 =>
      cases h2
      simp only at f2
      subst f2
      simp
    | more op1 =>
      simp only at h2 f1 f2
      obtain ⟨r, h3, h4⟩ := Out.bind_eq_ok.1 h2
      cases h4
      obtain ⟨i1, i2⟩ := loopS_sums hl n op1 r.1 r.2 f2.2.1 (.inl f2.2.2.1) h3
      refine ⟨?_, ?_⟩
      · rw [List.length_append]
        have : R * (togo b op1 + 1) ≤ R * togo b op := Nat.mul_le_mul_left _ f2.2.2.2
        rw [Nat.mul_add, Nat.mul_one] at this
        omega
      · intro s hs
        rcases List.mem_append.1 hs with hs | hs
        · exact f1 s hs
        · exact i2 s hs

theorem lexS_sums {R n : Nat} {l : Lexer} (hs : ∀ s, l.start = some s → s.rules.length ≤ R)
    (hl : ∀ x s, l.lexers x = some s → s.rules.length ≤ R) {b : Bytes} {r : (List Lx × Lexer) × List Search} (h : lexS n l b = .ok r) :
    r.2.length ≤ R * (2 * b.length + 1) ∧ ∀ s ∈ r.2, Inside b.length s := by
  unfold lexS at h
  cases hst : l.start with
  | none => rw [hst] at h; cases h
  | some s =>
    rw [hst] at h
    simp only at h
    obtain ⟨q, h3, h4⟩ := Out.bind_eq_ok.1 h
    cases h4
    obtain ⟨p1, p2, p3⟩ := populate_small (R := R) (b := b) (op := ⟨s, [], [],
      if l.startKind ≠ [] then [insertLx l.startKind l.startVal] else [], false, 0, 0, 1⟩)
      (Nat.zero_le _) (by simp) (hs s hst)
    obtain ⟨l1, l2⟩ := loopS_sums hl n _ _ _ p1 (.inr rfl) h3
    refine ⟨?_, ?_⟩
    · rw [List.length_append, Nat.mul_add, Nat.mul_one]
      have : togo b (populateNextS b ⟨s, [], [],
        if l.startKind ≠ [] then [insertLx l.startKind l.startVal] else [], false, 0, 0, 1⟩).1 = 2 * b.length := by simp [togo, populateNextS, populateNext]
      rw [this] at l1
      omega
    · intro s hs
      rcases List.mem_append.1 hs with hs | hs
      · exact p3 s hs
      · exact l2 s hs

end Verif.StackLexer
