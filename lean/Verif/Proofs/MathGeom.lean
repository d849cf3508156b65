import Mathlib.Tactic.Common
/-
Spans of arithmetic expressions in a list of tokens: 1 and 2 are the operators `op2` and `op1`, 3 is a number,
5 and 6 are the parentheses.
-/
namespace Verif.PMath

/-- There is an operator at `q`. -/
def Op (lex : List Nat) (q : Nat) : Prop := lex[q]? = some 1 ∨ lex[q]? = some 2

mutual
/-- An operand from `b` up to `e`. -/
inductive Atm (lex : List Nat) : Nat → Nat → Prop
  | num {b} : lex[b]? = some 3 → Atm lex b (b + 1)
  | un {b} : lex[b]? = some 1 → lex[b + 1]? = some 3 → Atm lex b (b + 2)
  | par {b e} : lex[b]? = some 5 → Ex lex (b + 1) e → lex[e]? = some 6 → Atm lex b (e + 1)
/-- Operands with operators in between, from `b` up to `e`. -/
inductive Ex (lex : List Nat) : Nat → Nat → Prop
  | one {b e} : Atm lex b e → Ex lex b e
  | more {b a e} : Atm lex b a → Op lex a → Ex lex (a + 1) e → Ex lex b e
end

variable {lex : List Nat}

mutual
theorem Atm.lt {b e} : Atm lex b e → b < e
  | .num _ => by omega
  | .un _ _ => by omega
  | .par _ h _ => by have := h.lt; omega
theorem Ex.lt {b e} : Ex lex b e → b < e
  | .one h => h.lt
  | .more h _ h2 => by have := h.lt; have := h2.lt; omega
end

theorem Atm.last {b e} (h : Atm lex b e) : lex[e - 1]? = some 3 ∨ lex[e - 1]? = some 6 := by
  cases h with
  | num h => exact .inl (by simpa using h)
  | un _ h => exact .inl (by simpa using h)
  | par _ _ h => exact .inr (by simpa using h)

theorem Ex.last {b e} : Ex lex b e → lex[e - 1]? = some 3 ∨ lex[e - 1]? = some 6
  | .one h => h.last
  | .more _ _ h => h.last

theorem Ex.app {s q e} (h : Ex lex s q) (ho : Op lex q) (h2 : Ex lex (q + 1) e) : Ex lex s e := by
  match h with
  | .one h => exact .more h ho h2
  | .more h1 o1 h3 => exact .more h1 o1 (h3.app ho h2)

/-- Two operands or more. -/
def Cmp (lex : List Nat) (s e : Nat) : Prop := ∃ a, Atm lex s a ∧ Op lex a ∧ Ex lex (a + 1) e

theorem Cmp.ex {s e} (h : Cmp lex s e) : Ex lex s e := let ⟨_, h1, h2, h3⟩ := h; .more h1 h2 h3

theorem Ex.cases' {s e} (h : Ex lex s e) : Atm lex s e ∨ Cmp lex s e := by
  cases h with
  | one h => exact .inl h
  | more h1 h2 h3 => exact .inr ⟨_, h1, h2, h3⟩

theorem Ex.split {s q e} (h : Ex lex s q) (ho : Op lex q) (h2 : Ex lex (q + 1) e) : Cmp lex s e := by
  cases h with
  | one h => exact ⟨_, h, ho, h2⟩
  | more h1 o1 h3 => exact ⟨_, h1, o1, h3.app ho h2⟩

theorem Op.not {q} (h : Op lex q) : lex[q]? ≠ some 3 ∧ lex[q]? ≠ some 5 ∧ lex[q]? ≠ some 6 := by
  rcases h with h | h <;> simp [h]

/-- An operand is determined by its start, and of two expressions with the same start the shorter is followed by
an operator and the rest. -/
theorem ends_aux : ∀ n b e e', e ≤ b + n → e' ≤ b + n →
    (Atm lex b e → Atm lex b e' → e = e') ∧ (Ex lex b e → Ex lex b e' → e < e' → Op lex e ∧ Ex lex (e + 1) e') := by
  intro n
  induction n with
  | zero =>
    intro b e e' h1 h2
    exact ⟨fun h => by have := h.lt; omega, fun h => by have := h.lt; omega⟩
  | succ n ih =>
    intro b e e' h1 h2
    have ha : ∀ e e', e ≤ b + (n + 1) → e' ≤ b + (n + 1) → Atm lex b e → Atm lex b e' → e = e' := by
      intro e e' h1 h2 h h'
      cases h with
      | num h =>
        cases h' with
        | num _ => rfl
        | un h' _ => rw [h] at h'; simp at h'
        | par h' _ _ => rw [h] at h'; simp at h'
      | un h _ =>
        cases h' with
        | num h' => rw [h] at h'; simp at h'
        | un _ _ => rfl
        | par h' _ _ => rw [h] at h'; simp at h'
      | @par _ x h hx hr =>
        cases h' with
        | num h' => rw [h] at h'; simp at h'
        | un h' _ => rw [h] at h'; simp at h'
        | @par _ y h' hy hr' =>
          rcases Nat.lt_trichotomy x y with hl | hl | hl
          · exact absurd hr ((ih (b + 1) x y (by omega) (by omega)).2 hx hy hl).1.not.2.2
          · rw [hl]
          · exact absurd hr' ((ih (b + 1) y x (by omega) (by omega)).2 hy hx hl).1.not.2.2
    refine ⟨ha e e' h1 h2, ?_⟩
    intro h h' hl
    cases h with
    | one h =>
      cases h' with
      | one h' => have := ha _ _ h1 h2 h h'; omega
      | @more _ a _ h' o x' =>
        have := x'.lt
        have := ha _ _ h1 (by omega) h h'
        subst this
        exact ⟨o, x'⟩
    | @more _ a _ h o x =>
      have l1 := x.lt
      cases h' with
      | one h' => have := ha _ _ (by omega) h2 h h'; omega
      | @more _ a' _ h' o' x' =>
        have l2 := x'.lt
        have := ha _ _ (by omega) (by omega) h h'
        subst this
        have := h.lt
        exact (ih (a + 1) e e' (by omega) (by omega)).2 x x' hl

theorem Atm.unique {b e e'} (h : Atm lex b e) (h' : Atm lex b e') : e = e' :=
  (ends_aux (e + e') b e e' (by omega) (by omega)).1 h h'

theorem Ex.shorter {b e e'} (h : Ex lex b e) (h' : Ex lex b e') (hl : e < e') : Op lex e ∧ Ex lex (e + 1) e' :=
  (ends_aux (e + e') b e e' (by omega) (by omega)).2 h h' hl

theorem Atm.not_cmp {b e} (h : Atm lex b e) : ¬ Cmp lex b e := by
  rintro ⟨a, h1, _, h2⟩
  have := h.unique h1
  have := h2.lt
  omega

/-- An expression ends with the first operand or later. -/
theorem Ex.past {s c q} (h : Ex lex s q) (hc : Atm lex s c) : q = c ∨ (c < q ∧ Cmp lex s q) := by
  rcases h.cases' with h | h
  · exact .inl (h.unique hc)
  · obtain ⟨a, h1, h2, h3⟩ := h
    have := h1.unique hc
    subst this
    have := h3.lt
    exact .inr ⟨by omega, a, h1, h2, h3⟩

theorem Ex.first {s q} (h : Ex lex s q) : ∃ c, Atm lex s c := by
  cases h with
  | one h => exact ⟨_, h⟩
  | more h _ _ => exact ⟨_, h⟩

theorem Cmp.last_atom {s e} (h : Cmp lex s e) : ∃ r, Ex lex s r ∧ Op lex r ∧ Atm lex (r + 1) e := by
  obtain ⟨a, h1, h2, h3⟩ := h
  have key : ∀ n s a e, e ≤ a + n → Atm lex s a → Op lex a → Ex lex (a + 1) e →
      ∃ r, Ex lex s r ∧ Op lex r ∧ Atm lex (r + 1) e := by
    intro n
    induction n with
    | zero => intro s a e hn _ _ h; have := h.lt; omega
    | succ n ih =>
      intro s a e hn h1 h2 h3
      cases h3 with
      | one h3 => exact ⟨a, .one h1, h2, h3⟩
      | @more _ a' _ h4 h5 h6 =>
        have := h4.lt
        obtain ⟨r, x1, x2, x3⟩ := ih (a + 1) a' e (by omega) h4 h5 h6
        exact ⟨r, .more h1 h2 x1, x2, x3⟩
  exact key e s a e (by omega) h1 h2 h3

/-- Depth of parentheses before a position. -/
def depth (lex : List Nat) : Nat → Int
  | 0 => 0
  | n + 1 => depth lex n + (if lex[n]? = some 5 then 1 else if lex[n]? = some 6 then -1 else 0)

theorem depth_op {q} (h : Op lex q) : depth lex (q + 1) = depth lex q := by
  rw [depth, if_neg h.not.2.1, if_neg h.not.2.2]; omega

mutual
theorem Atm.depth {b e} : Atm lex b e →
    PMath.depth lex e = PMath.depth lex b ∧ ∀ m, b ≤ m → m ≤ e → PMath.depth lex b ≤ PMath.depth lex m
  | .num h => by
    have : PMath.depth lex (b + 1) = PMath.depth lex b := by rw [PMath.depth]; simp [h]
    refine ⟨this, fun m h1 h2 => ?_⟩
    obtain rfl | rfl : m = b ∨ m = b + 1 := by omega
    · omega
    · omega
  | .un h h' => by
    have e1 : PMath.depth lex (b + 1) = PMath.depth lex b := by rw [PMath.depth]; simp [h]
    have e2 : PMath.depth lex (b + 2) = PMath.depth lex (b + 1) := by rw [PMath.depth]; simp [h']
    refine ⟨by omega, fun m h1 h2 => ?_⟩
    obtain rfl | rfl | rfl : m = b ∨ m = b + 1 ∨ m = b + 2 := by omega
    · omega
    · omega
    · omega
  | @Atm.par _ _ e h x h' => by
    obtain ⟨i1, i2⟩ := x.depth
    have l := x.lt
    have e1 : PMath.depth lex (b + 1) = PMath.depth lex b + 1 := by rw [PMath.depth]; simp [h]
    have e2 : PMath.depth lex (e + 1) = PMath.depth lex e - 1 := by rw [PMath.depth]; simp [h']; omega
    refine ⟨by omega, fun m h1 h2 => ?_⟩
    rcases Nat.lt_or_ge b m with hb | hb
    · rcases Nat.lt_or_ge e m with he | he
      · obtain rfl : m = e + 1 := by omega
        omega
      · have := i2 m (by omega) he; omega
    · obtain rfl : m = b := by omega
      omega
theorem Ex.depth {b e} : Ex lex b e →
    PMath.depth lex e = PMath.depth lex b ∧ ∀ m, b ≤ m → m ≤ e → PMath.depth lex b ≤ PMath.depth lex m
  | .one h => h.depth
  | @Ex.more _ _ a _ h o x => by
    obtain ⟨i1, i2⟩ := h.depth
    obtain ⟨j1, j2⟩ := x.depth
    have := depth_op o
    refine ⟨by omega, fun m h1 h2 => ?_⟩
    rcases Nat.lt_or_ge a m with hb | hb
    · have := j2 m (by omega) h2; omega
    · exact i2 m h1 hb
end

/-- Positions at which an expression may be looked for. -/
def Beg (lex : List Nat) (b : Nat) : Prop :=
  b = 0 ∨ ∃ a, b = a + 1 ∧ (lex[a]? = some 5 ∨ (Op lex a ∧ ∃ s, Ex lex s a))

theorem Beg.cases' {b} (h : Beg lex (b + 1)) : lex[b]? = some 5 ∨ (Op lex b ∧ ∃ s, Ex lex s b) := by
  rcases h with h | ⟨a, h, h'⟩
  · omega
  · obtain rfl : b = a := by omega
    exact h'

theorem Beg.not_num {b} (h : Beg lex b) (hu : lex[b]? = some 1) : ¬ Beg lex (b + 1) := by
  intro h2
  rcases h2.cases' with h2 | ⟨_, s, hs⟩
  · rw [hu] at h2; simp at h2
  · have hl := hs.lt
    have := hs.last
    rcases h with h | ⟨a, rfl, h⟩
    · omega
    · simp only [Nat.add_sub_cancel] at this
      rcases h with h | ⟨h, _⟩
      · rw [h] at this; simp at this
      · rcases h with h | h <;> rw [h] at this <;> simp at this

/-- An operand is determined by its end. -/
theorem Atm.unique' {b b' e} (h : Atm lex b e) (h' : Atm lex b' e) (hs : Beg lex b) (hs' : Beg lex b') : b = b' := by
  cases h with
  | num h =>
    generalize he : b + 1 = e at h'
    cases h' with
    | num _ => omega
    | @un _ h1 h2 =>
      obtain rfl : b = b' + 1 := by omega
      exact absurd hs (hs'.not_num h1)
    | @par _ y h1 h2 h3 =>
      obtain rfl : b = y := by omega
      rw [h] at h3; simp at h3
  | un h h2 =>
    generalize he : b + 2 = e at h'
    cases h' with
    | num _ =>
      obtain rfl : b' = b + 1 := by omega
      exact absurd hs' (hs.not_num h)
    | un _ _ => omega
    | @par _ y h1 _ h3 =>
      obtain rfl : b + 1 = y := by omega
      rw [h2] at h3; simp at h3
  | @par _ x h hx h3 =>
    generalize he : x + 1 = e at h'
    cases h' with
    | num h1 =>
      obtain rfl : b' = x := by omega
      rw [h3] at h1; simp at h1
    | un _ h1 =>
      obtain rfl : b' + 1 = x := by omega
      rw [h3] at h1; simp at h1
    | @par _ y h1 hy h4 =>
      obtain rfl : x = y := by omega
      obtain ⟨i1, i2⟩ := hx.depth
      obtain ⟨j1, j2⟩ := hy.depth
      have e1 : PMath.depth lex (b + 1) = PMath.depth lex b + 1 := by rw [PMath.depth]; simp [h]
      have e2 : PMath.depth lex (b' + 1) = PMath.depth lex b' + 1 := by rw [PMath.depth]; simp [h1]
      have := hx.lt
      have := hy.lt
      rcases Nat.lt_trichotomy b b' with hl | hl | hl
      · have := i2 b' (by omega) (by omega); omega
      · exact hl
      · have := j2 b (by omega) (by omega); omega

end Verif.PMath
