import Verif.Model.SimpleLexerSearch
import Verif.Proofs.SimpleLexer
import Verif.Spec.Searches
/-
Lemmas for C96: recording the searches changes nothing else, and what they add up to.
-/
namespace Verif.SimpleLexer
open Verif Verif.SetSymbol

theorem populateS_fst (b : Bytes) : ∀ rs, (populateNextS b rs).bind (fun r => .ok r.1) = populateNext b rs
  | [] => rfl
  | none :: _ => rfl
  | some r :: rs => by
    rw [populateNextS, populateNext, ← populateS_fst b rs]
    cases populateNextS b rs <;> rfl

theorem refindS_fst (b : Bytes) (cur : Nat) (e : Ent) : (refindS b cur e).1 = refind b cur e := by
  unfold refindS refind
  cases e.2 with
  | none => rfl
  | some loc =>
    simp only
    split <;> rfl

theorem updateS_fst (b : Bytes) (op : Op) : (updateNextS b op).1 = updateNext b op := by
  simp [updateNextS, updateNext, List.map_map, Function.comp_def, refindS_fst]

theorem loopS_fst (cmp : Cmp) (error b : Bytes) : ∀ n op, (loopS cmp error b n op).bind (fun r => .ok r.1) = loop cmp error b n op
  | 0, _ => rfl
  | n + 1, op => by
    rw [loopS, loop]
    cases body cmp error b op with
    | panic => rfl
    | fuel => rfl
    | ok op' =>
      simp only [Out.bind_ok]
      split
      · rfl
      · rw [← updateS_fst, ← loopS_fst cmp error b n]
        cases loopS cmp error b n (updateNextS b op').1 <;> rfl

theorem lexS_fst (n : Nat) (l : Lexer) (b : Bytes) : (lexS n l b).bind (fun r => .ok r.1) = lex n l b := by
  unfold lexS lex
  rw [← populateS_fst]
  cases populateNextS b l.rules with
  | panic => rfl
  | fuel => rfl
  | ok next =>
    simp only [Out.bind_ok]
    rw [← loopS_fst]
    cases loopS l.compare l.error b n
      { next := next.1, lxs := if l.startKind ≠ [] then [insertLx l.startKind l.startVal] else [], errFlag := false, errStart := 0,
        cur := 0, lines := 0, set := l.set } <;> rfl

/-! ### What the searches add up to -/

/-- Bytes passed over before the match, all that were left if there was none. -/
def skips (len : Nat) (s : Search) : Nat :=
  Spec.passed len s.start s.found

/-- Bytes up to the end of the match. -/
def exams (len : Nat) (s : Search) : Nat :=
  Spec.lookedAt len s.start s.found

/-- Where the match of an entry begins. -/
def pos (len : Nat) (e : Ent) : Nat :=
  match e.2 with
  | some (i, _) => i
  | none => len

/-- Entries with matches inside of the input. -/
def WF (len : Nat) (es : List Ent) : Prop := ∀ e ∈ es, ∀ i j, e.2 = some (i, j) → i ≤ j ∧ j ≤ len

theorem found_bound {r : Rule} {b : Bytes} {cur i j : Nat} (hc : cur ≤ b.length)
    (h : (r.re.find (b.drop cur)).map (fun l => (l.1 + cur, l.2 + cur)) = some (i, j)) : cur ≤ i ∧ i ≤ j ∧ j ≤ b.length := by
  cases hf : r.re.find (b.drop cur) with
  | none => rw [hf] at h; cases h
  | some l =>
    obtain ⟨x, y⟩ := l
    rw [hf] at h
    simp only [Option.map_some, Option.some.injEq, Prod.mk.injEq] at h
    have := r.re.bound _ _ _ hf
    rw [List.length_drop] at this
    omega

theorem choose_end (cmp : Cmp) (b : Bytes) (cur len : Nat) : ∀ (es : List Ent) (c : Choice), WF len es → cur ≤ c.lxEnd →
    cur ≤ (choose cmp b cur c es).lxEnd
  | [], _, _, h => h
  | (r, none) :: es, c, w, h => choose_end cmp b cur len es c (fun e he => w e (List.mem_cons_of_mem _ he)) h
  | (r, some loc) :: es, c, w, h => by
    rw [choose]
    have w' : WF len es := fun e he => w e (List.mem_cons_of_mem _ he)
    split
    · rename_i h'
      have := w (r, some loc) List.mem_cons_self loc.1 loc.2 rfl
      exact choose_end cmp b cur len es _ w' (by simp only; omega)
    · exact choose_end cmp b cur len es c w' h

theorem body_adv {cmp : Cmp} {error b : Bytes} {op op' : Op} {len : Nat} (w : WF len op.next) (h : body cmp error b op = .ok op') :
    op.cur < op'.cur ∧ op'.next = op.next := by
  unfold body findNextMatch at h
  simp only at h
  have hge := choose_end cmp b op.cur len op.next ⟨none, [], op.cur, -1⟩ w (Nat.le_refl _)
  have hck : ∀ o : Op, (checkError error b o).next = o.next := by
    intro o
    unfold checkError
    split <;> rfl
  split at h
  · cases h
    exact ⟨Nat.lt_succ_self _, rfl⟩
  · rename_i hne
    split at h
    · cases h
    · cases h
      refine ⟨?_, ?_⟩
      · simp only
        omega
      · simp only [hck]

theorem refindS_len (b : Bytes) (cur : Nat) (e : Ent) : (refindS b cur e).2.length ≤ 1 := by
  unfold refindS
  cases e.2 with
  | none => simp
  | some loc =>
    simp only
    split <;> simp

theorem refindS_skips (b : Bytes) {cur : Nat} (hc : cur ≤ b.length) (e : Ent) :
    (((refindS b cur e).2.map (skips b.length)).sum + pos b.length e ≤ pos b.length (refindS b cur e).1) ∨
      b.length < pos b.length e := by
  obtain ⟨r, o⟩ := e
  unfold refindS pos
  cases o with
  | none => left; simp
  | some loc =>
    simp only
    split
    · rename_i h
      cases hf : (r.re.find (b.drop cur)).map (fun l => (l.1 + cur, l.2 + cur)) with
      | none => left; simp [skips, Spec.passed]; omega
      | some ij =>
        obtain ⟨i, j⟩ := ij
        have := found_bound hc hf
        left
        simp [skips, Spec.passed]
        omega
    · left; simp

theorem refindS_wf {b : Bytes} {cur : Nat} (hc : cur ≤ b.length) {e : Ent} (w : ∀ i j, e.2 = some (i, j) → i ≤ j ∧ j ≤ b.length) :
    ∀ i j, (refindS b cur e).1.2 = some (i, j) → i ≤ j ∧ j ≤ b.length := by
  intro i j h
  unfold refindS at h
  cases he : e.2 with
  | none => rw [he] at h; simp only at h; rw [he] at h; cases h
  | some loc =>
    rw [he] at h
    simp only at h
    split at h
    · exact (found_bound hc h).2
    · exact w i j h

theorem refindS_exams (b : Bytes) {cur : Nat} (hc : cur ≤ b.length) (e : Ent) :
    ((refindS b cur e).2.map (exams b.length)).sum ≤ b.length - cur := by
  unfold refindS
  cases e.2 with
  | none => simp
  | some loc =>
    simp only
    split
    · cases hf : (e.1.re.find (b.drop cur)).map (fun l => (l.1 + cur, l.2 + cur)) with
      | none => simp [exams, Spec.lookedAt]
      | some ij =>
        obtain ⟨i, j⟩ := ij
        have := found_bound hc hf
        simp [exams, Spec.lookedAt]
        omega
    · simp

theorem update_sums (b : Bytes) {cur : Nat} (hc : cur ≤ b.length) : ∀ (es : List Ent), WF b.length es →
    (es.flatMap fun e => (refindS b cur e).2).length ≤ es.length ∧
    (((es.flatMap fun e => (refindS b cur e).2).map (skips b.length)).sum + (es.map (pos b.length)).sum ≤
      ((es.map fun e => (refindS b cur e).1).map (pos b.length)).sum) ∧
    ((es.flatMap fun e => (refindS b cur e).2).map (exams b.length)).sum ≤ es.length * (b.length - cur) ∧
    WF b.length (es.map fun e => (refindS b cur e).1) ∧
    ∀ s ∈ es.flatMap (fun e => (refindS b cur e).2), s.start = cur
  | [], _ => by simp [WF]
  | e :: es, w => by
    obtain ⟨h1, h2, h3, h4, h5⟩ := update_sums b hc es fun e he => w e (List.mem_cons_of_mem _ he)
    have k1 := refindS_len b cur e
    have k3 := refindS_exams b hc e
    have k4 := refindS_wf hc (w e List.mem_cons_self)
    have k2 : ((refindS b cur e).2.map (skips b.length)).sum + pos b.length e ≤ pos b.length (refindS b cur e).1 := by
      rcases refindS_skips b hc e with h | h
      · exact h
      · exfalso
        unfold pos at h
        cases he : e.2 with
        | none => rw [he] at h; simp at h
        | some ij =>
          rw [he] at h
          have := w e List.mem_cons_self ij.1 ij.2 he
          simp only at h
          omega
    refine ⟨?_, ?_, ?_, ?_, ?_⟩
    · simp only [List.flatMap_cons, List.length_append, List.length_cons]
      omega
    · simp only [List.flatMap_cons, List.map_append, List.sum_append, List.map_cons, List.sum_cons]
      omega
    · simp only [List.flatMap_cons, List.map_append, List.sum_append, List.length_cons, Nat.add_mul, Nat.one_mul]
      omega
    · intro x hx
      rw [List.map_cons, List.mem_cons] at hx
      rcases hx with rfl | hx
      · exact k4
      · exact h4 x hx
    · intro s hs
      rw [List.flatMap_cons, List.mem_append] at hs
      rcases hs with hs | hs
      · unfold refindS at hs
        cases he : e.2 with
        | none => rw [he] at hs; simp at hs
        | some loc =>
          rw [he] at hs
          simp only at hs
          split at hs
          · rw [List.mem_singleton] at hs
            rw [hs]
          · simp at hs
      · exact h5 s hs

theorem pos_le {len : Nat} : ∀ {es : List Ent}, WF len es → (es.map (pos len)).sum ≤ es.length * len
  | [], _ => by simp
  | e :: es, w => by
    have := pos_le (es := es) fun e he => w e (List.mem_cons_of_mem _ he)
    have k : pos len e ≤ len := by
      unfold pos
      cases he : e.2 with
      | none => simp
      | some ij =>
        have := w e List.mem_cons_self ij.1 ij.2 he
        simp only
        omega
    simp only [List.map_cons, List.sum_cons, List.length_cons, Nat.add_mul, Nat.one_mul]
    omega

/-- `0 + 1 + … + k`. -/
def tri : Nat → Nat
  | 0 => 0
  | k + 1 => tri k + (k + 1)

theorem tri_mono {i j : Nat} (h : i ≤ j) : tri i ≤ tri j := by
  induction h with
  | refl => exact Nat.le_refl _
  | step _ ih => exact Nat.le_trans ih (Nat.le_add_right _ _)

theorem tri_eq : ∀ k, 2 * tri k = k * (k + 1)
  | 0 => rfl
  | k + 1 => by
    rw [tri, Nat.mul_add, tri_eq k, ← Nat.add_mul]
    exact Nat.mul_comm _ _

theorem loopS_sums {cmp : Cmp} {error b : Bytes} : ∀ n (op op' : Op) ss, WF b.length op.next →
    loopS cmp error b n op = .ok (op', ss) →
    ss.length ≤ op.next.length * (b.length - op.cur - 1) ∧
    (ss.map (skips b.length)).sum + (op.next.map (pos b.length)).sum ≤ op.next.length * b.length ∧
    (ss.map (exams b.length)).sum ≤ op.next.length * tri (b.length - op.cur - 1) ∧
    ∀ s ∈ ss, op.cur < s.start ∧ s.start < b.length
  | 0, _, _, _, _, h => by cases h
  | n + 1, op, op', ss, w, h => by
    rw [loopS] at h
    obtain ⟨op1, h1, h2⟩ := Out.bind_eq_ok.1 h
    obtain ⟨g1, g2⟩ := body_adv w h1
    split at h2
    · cases h2
      refine ⟨by simp, ?_, by simp, by simp⟩
      simpa using pos_le w
    · rename_i hlt
      simp only at h2
      obtain ⟨r, h3, h4⟩ := Out.bind_eq_ok.1 h2
      cases h4
      have hc : op1.cur ≤ b.length := by omega
      obtain ⟨u1, u2, u3, u4, u5⟩ := update_sums b hc op1.next (g2 ▸ w)
      have e1 : (updateNextS b op1).2 = op1.next.flatMap fun e => (refindS b op1.cur e).2 := by
        simp [updateNextS, List.flatMap_map]
      have e2 : (updateNextS b op1).1.next = op1.next.map fun e => (refindS b op1.cur e).1 := by
        simp [updateNextS, List.map_map, Function.comp_def]
      have e3 : (updateNextS b op1).1.cur = op1.cur := rfl
      have ih := loopS_sums n _ _ _ (by rw [e2]; exact u4) h3
      rw [e2, e3, List.length_map] at ih
      rw [← e1] at u1 u2 u3 u5
      obtain ⟨i1, i2, i3, i4⟩ := ih
      rw [g2] at u1 u2 u3 i1 i2 i3
      refine ⟨?_, ?_, ?_, ?_⟩
      · rw [List.length_append]
        have : op.next.length * (b.length - op1.cur - 1 + 1) ≤ op.next.length * (b.length - op.cur - 1) :=
          Nat.mul_le_mul_left _ (by omega)
        rw [Nat.mul_add, Nat.mul_one] at this
        omega
      · rw [List.map_append, List.sum_append]
        omega
      · rw [List.map_append, List.sum_append]
        have h5 : tri (b.length - op1.cur) ≤ tri (b.length - op.cur - 1) := tri_mono (by omega)
        have h6 : tri (b.length - op1.cur) = tri (b.length - op1.cur - 1) + (b.length - op1.cur) := by
          obtain ⟨k, hk⟩ : ∃ k, b.length - op1.cur = k + 1 := ⟨b.length - op1.cur - 1, by omega⟩
          rw [hk]
          rfl
        have := Nat.mul_le_mul_left op.next.length h5
        rw [h6, Nat.mul_add] at this
        omega
      · intro s hs
        rw [List.mem_append] at hs
        rcases hs with hs | hs
        · rw [u5 s hs]
          omega
        · have := i4 s hs
          omega

theorem populateS_sums {b : Bytes} : ∀ (rs : List (Option Rule)) (es : List Ent) (ss : List Search), populateNextS b rs = .ok (es, ss) →
    es.length = rs.length ∧ ss.length = rs.length ∧ (ss.map (skips b.length)).sum = (es.map (pos b.length)).sum ∧
    (ss.map (exams b.length)).sum ≤ rs.length * b.length ∧ WF b.length es ∧ ∀ s ∈ ss, s.start = 0
  | [], es, ss, h => by
    cases h
    simp [WF]
  | none :: _, _, _, h => by cases h
  | some r :: rs, es, ss, h => by
    rw [populateNextS] at h
    obtain ⟨ns, h1, h2⟩ := Out.bind_eq_ok.1 h
    cases h2
    obtain ⟨g1, g2, g3, g4, g5, g6⟩ := populateS_sums rs ns.1 ns.2 h1
    have hb : ∀ i j, r.re.find b = some (i, j) → i ≤ j ∧ j ≤ b.length := r.re.bound b
    refine ⟨by simp [g1], by simp [g2], ?_, ?_, ?_, ?_⟩
    · simp only [List.map_cons, List.sum_cons, g3]
      congr 1
    · simp only [List.map_cons, List.sum_cons, List.length_cons, Nat.add_mul, Nat.one_mul]
      have : exams b.length ⟨0, r.re.find b⟩ ≤ b.length := by
        unfold exams Spec.lookedAt
        cases hf : r.re.find b with
        | none => simp
        | some ij =>
          have := hb ij.1 ij.2 hf
          simp only
          omega
      omega
    · intro e he
      rcases List.mem_cons.1 he with rfl | he
      · exact hb
      · exact g5 e he
    · intro s hs
      rcases List.mem_cons.1 hs with rfl | hs
      · rfl
      · exact g6 s hs

theorem lexS_sums {n : Nat} {l : Lexer} {b : Bytes} {r : (List Lx × Lexer) × List Search} (h : lexS n l b = .ok r) :
    r.2.length ≤ l.rules.length * max 1 b.length ∧
    (r.2.map (skips b.length)).sum ≤ l.rules.length * b.length ∧
    (r.2.map (exams b.length)).sum ≤ l.rules.length * tri b.length := by
  unfold lexS at h
  obtain ⟨next, h1, h2⟩ := Out.bind_eq_ok.1 h
  obtain ⟨q, h3, h4⟩ := Out.bind_eq_ok.1 h2
  cases h4
  obtain ⟨p1, p2, p3, p4, p5, -⟩ := populateS_sums _ _ _ h1
  obtain ⟨l1, l2, l3, -⟩ := loopS_sums n _ _ _ p5 h3
  simp only [p1, Nat.sub_zero] at l1 l2 l3
  simp only [List.length_append, List.map_append, List.sum_append, p2, p3]
  refine ⟨?_, by omega, ?_⟩
  · by_cases hb : b.length = 0
    · rw [hb] at l1 ⊢
      simp at l1 ⊢
      omega
    · have : l.rules.length * (b.length - 1 + 1) ≤ l.rules.length * max 1 b.length := Nat.mul_le_mul_left _ (by omega)
      rw [Nat.mul_add, Nat.mul_one] at this
      omega
  · cases hb : b.length with
    | zero => rw [hb] at p4 l3; simp [tri] at p4 l3 ⊢; omega
    | succ k =>
      rw [hb] at p4 l3
      rw [tri, Nat.mul_add]
      simp only [Nat.add_sub_cancel] at l3
      omega

end Verif.SimpleLexer
