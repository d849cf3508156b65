import Verif.Spec.Regexp
/-
Working out what regular expressions match.
-/
namespace Verif.Spec

section
variable {β : Type} (next : List β → Option (Nat × Nat))

/-- Repetition without captures. -/
def again1 (f : List β → List (List β)) : Nat → List β → List (List β)
  | 0, s => [s]
  | n + 1, s => ((f s).filter fun q => decide (q.length < s.length)).flatMap (again1 f n) ++ [s]

/-- All ways to match, without captures: what is left. -/
def Rex.ends : Rex → List β → List (List β)
  | .eps, s => [s]
  | .cls c, s =>
    match next s with
    | some (r, w) => if c.has r then [s.drop w] else []
    | none => []
  | .fin, s => if s.length = 0 then [s] else []
  | .seq a b, s => (Rex.ends a s).flatMap (Rex.ends b)
  | .alt a b, s => Rex.ends a s ++ Rex.ends b s
  | .star a, s => again1 (Rex.ends a) s.length s
  | .cap _ a, s => Rex.ends a s

theorem flatMap_fst {γ : Type} {f : List β × γ → List (List β × γ)} {g : List β → List (List β)}
    (h : ∀ st, (f st).map (·.1) = g st.1) (l : List (List β × γ)) :
    (l.flatMap f).map (·.1) = (l.map (·.1)).flatMap g := by
  induction l with
  | nil => rfl
  | cons x l ih => simp only [List.flatMap_cons, List.map_append, ih, List.map_cons, h]

theorem again_fst {f : List β × Caps β → List (List β × Caps β)} {g : List β → List (List β)}
    (h : ∀ st, (f st).map (·.1) = g st.1) : ∀ n st, (again f n st).map (·.1) = again1 g n st.1
  | 0, st => rfl
  | n + 1, st => by
    rw [again, again1, List.map_append, flatMap_fst (again_fst h n), ← h st, List.filter_map]
    rfl

theorem run_fst : ∀ (r : Rex) (st : List β × Caps β), (r.run next st).map (·.1) = r.ends next st.1
  | .eps, st => rfl
  | .cls c, st => by
    simp only [Rex.run, Rex.ends]
    cases next st.1 with
    | none => rfl
    | some q => simp only; split <;> rfl
  | .fin, st => by simp only [Rex.run, Rex.ends]; split <;> rfl
  | .seq a b, st => by rw [Rex.run, Rex.ends, flatMap_fst (run_fst b), run_fst a]
  | .alt a b, st => by rw [Rex.run, Rex.ends, List.map_append, run_fst a, run_fst b]
  | .star a, st => by rw [Rex.run, Rex.ends, again_fst (run_fst a)]
  | .cap n a, st => by
    rw [Rex.run, Rex.ends, List.map_map, ← run_fst a]
    rfl

/-- The match at the beginning. -/
def Rex.rest (r : Rex) (s : List β) : Option (List β) := (r.ends next s).head?

theorem first_rest (r : Rex) (s : List β) : (r.first next s).map (·.1) = r.rest next s := by
  rw [Rex.first, Rex.rest, ← run_fst next r (s, []), List.head?_map]
end

theorem len_rest (r : Rex) (s : List UInt8) : r.len s = (r.rest decode s).map fun t => s.length - t.length := by
  rw [Rex.len, ← first_rest, Option.map_map]
  rfl

/-! ### Classes of bytes -/

theorem inRange_ascii {x : UInt8} (h : x.toNat < 0x80) {lo hi : Nat} (hl : 0x80 ≤ lo) : inRange lo hi x = false := by
  simp only [inRange, Bool.and_eq_false_imp, decide_eq_true_eq, decide_eq_false_iff_not]
  omega

theorem runeLen_ascii {x : UInt8} (h : x.toNat < 0x80) (s : List UInt8) : runeLen (x :: s) = 1 := by
  rcases s with _ | ⟨b, _ | ⟨c, _ | ⟨d, s⟩⟩⟩ <;> simp [runeLen, inRange_ascii h]

theorem decode_ascii {x : UInt8} (h : x.toNat < 0x80) (s : List UInt8) : decode (x :: s) = some (x.toNat, 1) := by
  unfold decode
  simp only [runeLen_ascii h]
  rw [if_pos h]

theorem decode_high {x : UInt8} (h : ¬ x.toNat < 0x80) (s : List UInt8) :
    ∃ r, decode (x :: s) = some (r, runeLen (x :: s)) ∧ 0x80 ≤ r := by
  have one : runeLen (x :: s) = 1 → ∃ r, decode (x :: s) = some (r, runeLen (x :: s)) ∧ 0x80 ≤ r := by
    intro e
    refine ⟨0xFFFD, ?_, by omega⟩
    unfold decode
    simp only [e]
    rw [if_neg h]
  rcases s with _ | ⟨b, _ | ⟨c, _ | ⟨d, s⟩⟩⟩
  · exact one rfl
  · by_cases h2 : (inRange 0xC2 0xDF x && isCont b) = true
    · have e : runeLen [x, b] = 2 := by simp [runeLen, h2]
      refine ⟨_, by unfold decode; simp only [e]; rfl, ?_⟩
      simp only [Bool.and_eq_true, inRange, isCont, decide_eq_true_eq] at h2
      omega
    · exact one (by simp [runeLen, h2])
  · by_cases h2 : (inRange 0xC2 0xDF x && isCont b) = true
    · have e : runeLen [x, b, c] = 2 := by simp [runeLen, h2]
      refine ⟨_, by unfold decode; simp only [e]; rfl, ?_⟩
      simp only [Bool.and_eq_true, inRange, isCont, decide_eq_true_eq] at h2
      omega
    · by_cases h3 : (((inRange 0xE0 0xE0 x && inRange 0xA0 0xBF b) || (inRange 0xE1 0xEC x && isCont b) ||
        (inRange 0xED 0xED x && inRange 0x80 0x9F b) || (inRange 0xEE 0xEF x && isCont b)) && isCont c) = true
      · have e : runeLen [x, b, c] = 3 := by simp only [runeLen]; rw [if_neg h2, if_pos h3]
        refine ⟨_, by unfold decode; simp only [e]; rfl, ?_⟩
        simp only [Bool.and_eq_true, Bool.or_eq_true, inRange, isCont, decide_eq_true_eq] at h3
        omega
      · exact one (by simp only [runeLen]; rw [if_neg h2, if_neg h3])
  · by_cases h2 : (inRange 0xC2 0xDF x && isCont b) = true
    · have e : runeLen (x :: b :: c :: d :: s) = 2 := by simp [runeLen, h2]
      refine ⟨_, by unfold decode; simp only [e]; rfl, ?_⟩
      simp only [Bool.and_eq_true, inRange, isCont, decide_eq_true_eq] at h2
      omega
    · by_cases h3 : (((inRange 0xE0 0xE0 x && inRange 0xA0 0xBF b) || (inRange 0xE1 0xEC x && isCont b) ||
        (inRange 0xED 0xED x && inRange 0x80 0x9F b) || (inRange 0xEE 0xEF x && isCont b)) && isCont c) = true
      · have e : runeLen (x :: b :: c :: d :: s) = 3 := by simp only [runeLen]; rw [if_neg h2, if_pos h3]
        refine ⟨_, by unfold decode; simp only [e]; rfl, ?_⟩
        simp only [Bool.and_eq_true, Bool.or_eq_true, inRange, isCont, decide_eq_true_eq] at h3
        omega
      · by_cases h4 : (((inRange 0xF0 0xF0 x && inRange 0x90 0xBF b) || (inRange 0xF1 0xF3 x && isCont b) ||
          (inRange 0xF4 0xF4 x && inRange 0x80 0x8F b)) && isCont c && isCont d) = true
        · have e : runeLen (x :: b :: c :: d :: s) = 4 := by
            simp only [runeLen]; rw [if_neg h2, if_neg h3, if_pos h4]
          refine ⟨_, by unfold decode; simp only [e]; rfl, ?_⟩
          simp only [Bool.and_eq_true, Bool.or_eq_true, inRange, isCont, decide_eq_true_eq] at h4
          omega
        · exact one (by simp only [runeLen]; rw [if_neg h2, if_neg h3, if_neg h4])

/-- All ranges are ASCII. -/
def Cls.low (c : Cls) : Bool := c.ranges.all fun x => decide (x.2 < 0x80)

theorem has_high {c : Cls} (h : c.low = true) {r : Nat} (hr : 0x80 ≤ r) : c.has r = c.neg := by
  have : (c.ranges.any fun x => decide (x.1 ≤ r) && decide (r ≤ x.2)) = false := by
    rw [List.any_eq_false]
    intro x hx
    have := List.all_eq_true.1 h x hx
    simp only [decide_eq_true_eq] at this
    simp only [Bool.and_eq_true, decide_eq_true_eq, not_and]
    omega
  rw [Cls.has, this]
  simp

/-- The bytes of characters in the class. -/
def Cls.byte (c : Cls) (x : UInt8) : Bool := if x.toNat < 0x80 then c.has x.toNat else c.neg

theorem ends_ascii {c : Cls} {x : UInt8} (h : x.toNat < 0x80) (s : List UInt8) :
    (Rex.cls c).ends decode (x :: s) = if c.byte x then [s] else [] := by
  simp only [Rex.ends, decode_ascii h, Cls.byte, if_pos h, List.drop_one, List.tail_cons]

theorem ends_high {c : Cls} (hc : c.low = true) {x : UInt8} (h : ¬ x.toNat < 0x80) (s : List UInt8) :
    (Rex.cls c).ends decode (x :: s) = if c.byte x then [(x :: s).drop (runeLen (x :: s))] else [] := by
  obtain ⟨r, e, hr⟩ := decode_high h s
  simp only [Rex.ends, e, has_high hc hr, Cls.byte, if_neg h]

theorem ends_nil {c : Cls} : (Rex.cls c).ends decode [] = [] := rfl

/-- A class that is not negated takes a byte. -/
theorem ends_pos {c : Cls} (hc : c.low = true) (hn : c.neg = false) (x : UInt8) (s : List UInt8) :
    (Rex.cls c).ends decode (x :: s) = if c.byte x then [s] else [] := by
  by_cases h : x.toNat < 0x80
  · exact ends_ascii h s
  · rw [ends_high hc h]
    simp [Cls.byte, h, hn]

theorem runeLen_le_all {s : List UInt8} (h : s ≠ []) : runeLen s ≤ s.length := by
  rcases s with _ | ⟨a, _ | ⟨b, _ | ⟨c, _ | ⟨d, s⟩⟩⟩⟩
  · exact absurd rfl h
  · simp [runeLen]
  · simp only [runeLen, List.length_cons, List.length_nil]; split <;> omega
  · simp only [runeLen, List.length_cons, List.length_nil]
    split
    · omega
    · split <;> omega
  · simp only [runeLen, List.length_cons]
    split
    · omega
    · split
      · omega
      · split <;> omega

/-- What one round of a class leaves, if it matches. -/
theorem ends_cls {c : Cls} (hc : c.low = true) (x : UInt8) (s : List UInt8) :
    (c.byte x = false ∧ (Rex.cls c).ends decode (x :: s) = []) ∨
    (c.byte x = true ∧ ∃ n, (Rex.cls c).ends decode (x :: s) = [s.drop n] ∧ n ≤ s.length ∧
      (∀ y ∈ s.take n, c.byte y = true) ∧ (c.neg = false → n = 0)) := by
  by_cases h : x.toNat < 0x80
  · rw [ends_ascii h]
    cases hb : c.byte x with
    | false => exact .inl ⟨rfl, rfl⟩
    | true => exact .inr ⟨rfl, 0, rfl, Nat.zero_le _, by simp, fun _ => rfl⟩
  · rw [ends_high hc h]
    cases hb : c.byte x with
    | false => exact .inl ⟨rfl, rfl⟩
    | true =>
      have hn : c.neg = true := by simpa [Cls.byte, h] using hb
      have hp := runeLen_pos (x :: s)
      have hl := runeLen_le_all (s := x :: s) (by simp)
      simp only [List.length_cons] at hl
      refine .inr ⟨rfl, runeLen (x :: s) - 1, ?_, by omega, ?_, fun h' => absurd h' (by simp [hn])⟩
      · obtain ⟨k, hk⟩ : ∃ k, runeLen (x :: s) = k + 1 := ⟨runeLen (x :: s) - 1, by omega⟩
        rw [hk]
        simp
      · intro y hy
        obtain ⟨i, hi⟩ := List.mem_iff_getElem?.1 hy
        have hin : i < runeLen (x :: s) - 1 := by
          have := (List.getElem?_eq_some_iff.1 hi).1
          simp only [List.length_take] at this
          omega
        rw [List.getElem?_take_of_lt hin] at hi
        obtain ⟨z, t, e, hz⟩ := runeLen_tail (s := x :: s) (j := i + 1) (by omega) (by omega)
        have : (x :: s)[i + 1]? = some z := by
          have := congrArg (·[0]?) e
          simpa using this
        rw [List.getElem?_cons_succ, hi] at this
        cases this
        simp only [isCont, inRange, Bool.and_eq_true, decide_eq_true_eq] at hz
        rw [Cls.byte, if_neg (by omega), hn]

theorem head?_append_left {α : Type} {l m : List α} (h : l ≠ []) : (l ++ m).head? = l.head? := by
  cases l with
  | nil => exact absurd rfl h
  | cons x l => rfl

theorem again1_head {f : List UInt8 → List (List UInt8)} : ∀ (n : Nat) (s : List UInt8), again1 f n s ≠ []
  | 0, s => by simp [again1]
  | n + 1, s => by simp [again1]

/-- A class repeated takes all there is first. -/
theorem star_rest {c : Cls} (hc : c.low = true) (s : List UInt8) : (Rex.star (.cls c)).rest decode s = some (s.dropWhile c.byte) := by
  have : ∀ (n : Nat) (s : List UInt8), s.length ≤ n → (again1 ((Rex.cls c).ends decode) n s).head? = some (s.dropWhile c.byte) := by
    intro n
    induction n with
    | zero => intro s hs; cases s with
      | nil => rfl
      | cons x s => simp at hs
    | succ n ih =>
      intro s hs
      cases s with
      | nil => rfl
      | cons x s =>
        simp only [List.length_cons] at hs
        rw [again1]
        rcases ends_cls hc x s with ⟨h1, h2⟩ | ⟨h1, k, h2, h3, h4, h5⟩
        · rw [h2, List.dropWhile_cons_of_neg (by simp [h1])]
          rfl
        · rw [h2, List.dropWhile_cons_of_pos h1]
          have hk : (s.drop k).length < (x :: s).length := by simp; omega
          simp only [List.filter_cons, hk, decide_true, if_true, List.filter_nil, List.flatMap_cons, List.flatMap_nil, List.append_nil]
          rw [head?_append_left (again1_head n _), ih _ (by simp; omega)]
          congr 1
          conv => rhs; rw [← List.take_append_drop k s]
          rw [List.dropWhile_append_of_pos h4]
  exact this s.length s (Nat.le_refl _)

/-- What repetitions of a class leave: any shorter stretch too. -/
theorem star_ends {c : Cls} (hc : c.low = true) {s t : List UInt8} (h : t ∈ (Rex.star (.cls c)).ends decode s) :
    ∃ u, s = u ++ t ∧ ∀ y ∈ u, c.byte y = true := by
  have : ∀ (n : Nat) (s t : List UInt8), t ∈ again1 ((Rex.cls c).ends decode) n s → ∃ u, s = u ++ t ∧ ∀ y ∈ u, c.byte y = true := by
    intro n
    induction n with
    | zero => intro s t h; simp only [again1, List.mem_singleton] at h; subst h; exact ⟨[], rfl, by simp⟩
    | succ n ih =>
      intro s t h
      rw [again1, List.mem_append, List.mem_singleton] at h
      rcases h with h | rfl
      · obtain ⟨q, hq, h⟩ := List.mem_flatMap.1 h
        have hq := (List.mem_filter.1 hq).1
        cases s with
        | nil => simp [Rex.ends, decode] at hq
        | cons x s =>
          rcases ends_cls hc x s with ⟨h1, h2⟩ | ⟨h1, k, h2, h3, h4, h5⟩
          · rw [h2] at hq; cases hq
          · rw [h2, List.mem_singleton] at hq
            subst hq
            obtain ⟨u, e, hu⟩ := ih _ _ h
            refine ⟨x :: (s.take k ++ u), ?_, ?_⟩
            · rw [List.cons_append, List.append_assoc, ← e, List.take_append_drop]
            · intro y hy
              rcases List.mem_cons.1 hy with rfl | hy
              · exact h1
              · rcases List.mem_append.1 hy with hy | hy
                · exact h4 y hy
                · exact hu y hy
      · exact ⟨[], rfl, by simp⟩
  exact this _ _ _ h

/-! ### Combining -/

section
variable {β : Type} {next : List β → Option (Nat × Nat)}

theorem seq_rest {a b : Rex} {s t u : List β} (h1 : a.rest next s = some t) (h2 : b.rest next t = some u) :
    (Rex.seq a b).rest next s = some u := by
  simp only [Rex.rest, Rex.ends] at h1 h2 ⊢
  cases h : a.ends next s with
  | nil => rw [h] at h1; cases h1
  | cons x l =>
    rw [h, List.head?_cons, Option.some.injEq] at h1
    subst h1
    rw [List.flatMap_cons, head?_append_left (by intro e; rw [e] at h2; cases h2), h2]

theorem seq_none {a b : Rex} {s : List β} (h : ∀ t ∈ a.ends next s, b.ends next t = []) : (Rex.seq a b).ends next s = [] := by
  rw [Rex.ends, List.flatMap_eq_nil_iff]
  exact h

theorem alt_rest (a b : Rex) (s : List β) : (Rex.alt a b).rest next s = (a.rest next s).or (b.rest next s) := by
  simp only [Rex.rest, Rex.ends]
  rw [List.head?_append]

theorem cap_rest (n : Nat) (a : Rex) (s : List β) : (Rex.cap n a).rest next s = a.rest next s := rfl

theorem rest_none {r : Rex} {s : List β} : r.rest next s = none ↔ r.ends next s = [] := by
  simp [Rex.rest]
end

/-! ### Which bytes a match can begin with -/

/-- A match that begins with the byte matches nothing. -/
def Rex.stuck (x : UInt8) : Rex → Bool
  | .eps => true
  | .cls c => !c.byte x
  | .fin => true
  | .seq a b => a.stuck x && b.stuck x
  | .alt a b => a.stuck x && b.stuck x
  | .star a => a.stuck x
  | .cap _ a => a.stuck x

/-- There is no match that begins with the byte. -/
def Rex.dead (x : UInt8) : Rex → Bool
  | .eps => false
  | .cls c => !c.byte x
  | .fin => true
  | .seq a b => a.dead x || (a.stuck x && b.dead x)
  | .alt a b => a.dead x && b.dead x
  | .star _ => false
  | .cap _ a => a.dead x

/-- All classes have ASCII ranges. -/
def Rex.low : Rex → Bool
  | .eps => true
  | .cls c => c.low
  | .fin => true
  | .seq a b => a.low && b.low
  | .alt a b => a.low && b.low
  | .star a => a.low
  | .cap _ a => a.low

theorem cls_dead {c : Cls} (hc : c.low = true) {x : UInt8} (h : c.byte x = false) (s : List UInt8) :
    (Rex.cls c).ends decode (x :: s) = [] := by
  rcases ends_cls hc x s with ⟨-, h2⟩ | ⟨h1, -⟩
  · exact h2
  · rw [h] at h1; cases h1

theorem stuck_ends {x : UInt8} {s : List UInt8} : ∀ {r : Rex}, r.low = true → r.stuck x = true →
    ∀ t ∈ r.ends decode (x :: s), t = x :: s
  | .eps, _, _, t, h => by simpa [Rex.ends] using h
  | .cls c, hl, hs, t, h => by
    rw [cls_dead hl (by simpa [Rex.stuck] using hs)] at h
    cases h
  | .fin, _, _, t, h => by simp [Rex.ends] at h
  | .seq a b, hl, hs, t, h => by
    simp only [Rex.low, Rex.stuck, Bool.and_eq_true] at hl hs
    rw [Rex.ends, List.mem_flatMap] at h
    obtain ⟨u, h1, h2⟩ := h
    rw [stuck_ends hl.1 hs.1 u h1] at h2
    exact stuck_ends hl.2 hs.2 t h2
  | .alt a b, hl, hs, t, h => by
    simp only [Rex.low, Rex.stuck, Bool.and_eq_true] at hl hs
    rw [Rex.ends, List.mem_append] at h
    rcases h with h | h
    · exact stuck_ends hl.1 hs.1 t h
    · exact stuck_ends hl.2 hs.2 t h
  | .star a, hl, hs, t, h => by
    rw [Rex.ends, List.length_cons, again1, List.mem_append, List.mem_singleton] at h
    rcases h with h | h
    · obtain ⟨q, h1, h2⟩ := List.mem_flatMap.1 h
      have h1 := List.mem_filter.1 h1
      rw [stuck_ends (r := a) hl hs q h1.1] at h1
      simp at h1
    · exact h
  | .cap _ a, hl, hs, t, h => stuck_ends (r := a) hl hs t h

theorem dead_ends {x : UInt8} {s : List UInt8} : ∀ {r : Rex}, r.low = true → r.dead x = true → r.ends decode (x :: s) = []
  | .eps, _, h => by simp [Rex.dead] at h
  | .cls c, hl, h => cls_dead hl (by simpa [Rex.dead] using h) s
  | .fin, _, _ => by simp [Rex.ends]
  | .seq a b, hl, h => by
    simp only [Rex.low, Bool.and_eq_true] at hl
    simp only [Rex.dead, Bool.or_eq_true, Bool.and_eq_true] at h
    rcases h with h | ⟨h1, h2⟩
    · rw [Rex.ends, dead_ends hl.1 h]; rfl
    · exact seq_none fun t ht => by rw [stuck_ends hl.1 h1 t ht]; exact dead_ends hl.2 h2
  | .alt a b, hl, h => by
    simp only [Rex.low, Rex.dead, Bool.and_eq_true] at hl h
    rw [Rex.ends, dead_ends hl.1 h.1, dead_ends hl.2 h.2]; rfl
  | .star a, _, h => by simp [Rex.dead] at h
  | .cap _ a, hl, h => dead_ends (r := a) hl h

theorem dead_len {x : UInt8} {s : List UInt8} {r : Rex} (hl : r.low = true) (h : r.dead x = true) : r.len (x :: s) = none := by
  rw [len_rest, Rex.rest, dead_ends hl h]; rfl

theorem ends_le : ∀ {r : Rex} {s t : List UInt8}, t ∈ r.ends decode s → t.length ≤ s.length
  | .eps, s, t, h => by simp only [Rex.ends, List.mem_singleton] at h; rw [h]; exact Nat.le_refl _
  | .cls c, s, t, h => by
    simp only [Rex.ends] at h
    split at h
    · split at h
      · rw [List.mem_singleton] at h; rw [h]; simp
      · cases h
    · cases h
  | .fin, s, t, h => by
    simp only [Rex.ends] at h
    split at h
    · rw [List.mem_singleton] at h; rw [h]; exact Nat.le_refl _
    · cases h
  | .seq a b, s, t, h => by
    rw [Rex.ends, List.mem_flatMap] at h
    obtain ⟨u, h1, h2⟩ := h
    exact Nat.le_trans (ends_le h2) (ends_le h1)
  | .alt a b, s, t, h => by
    rw [Rex.ends, List.mem_append] at h
    rcases h with h | h <;> exact ends_le h
  | .star a, s, t, h => by
    have : ∀ (n : Nat) (s t : List UInt8), t ∈ again1 (a.ends decode) n s → t.length ≤ s.length := by
      intro n
      induction n with
      | zero => intro s t h; simp only [again1, List.mem_singleton] at h; rw [h]; exact Nat.le_refl _
      | succ n ih =>
        intro s t h
        rw [again1, List.mem_append, List.mem_singleton] at h
        rcases h with h | rfl
        · obtain ⟨q, h1, h2⟩ := List.mem_flatMap.1 h
          have := (List.mem_filter.1 h1).2
          simp only [decide_eq_true_eq] at this
          exact Nat.le_trans (ih _ _ h2) (Nat.le_of_lt this)
        · exact Nat.le_refl _
    exact this _ _ _ h
  | .cap _ a, s, t, h => ends_le (r := a) h

theorem needs_lt : ∀ {r : Rex} {s t : List UInt8}, r.needs = true → t ∈ r.ends decode s → t.length < s.length
  | .eps, _, _, h, _ => by simp [Rex.needs] at h
  | .cls c, s, t, _, h => by
    cases s with
    | nil => cases h
    | cons x s =>
      simp only [Rex.ends] at h
      split at h
      · next r w e =>
        split at h
        · rw [List.mem_singleton] at h
          have hw : 0 < w := by
            by_cases hx : x.toNat < 0x80
            · rw [decode_ascii hx] at e; cases e; omega
            · obtain ⟨r', e', -⟩ := decode_high hx s
              rw [e'] at e
              cases e
              exact runeLen_pos _
          rw [h, List.length_drop, List.length_cons]
          omega
        · cases h
      · cases h
  | .fin, _, _, h, _ => by simp [Rex.needs] at h
  | .seq a b, s, t, hn, h => by
    simp only [Rex.needs, Bool.or_eq_true] at hn
    rw [Rex.ends, List.mem_flatMap] at h
    obtain ⟨u, h1, h2⟩ := h
    rcases hn with hn | hn
    · exact Nat.lt_of_le_of_lt (ends_le h2) (needs_lt hn h1)
    · exact Nat.lt_of_lt_of_le (needs_lt hn h2) (ends_le h1)
  | .alt a b, s, t, hn, h => by
    simp only [Rex.needs, Bool.and_eq_true] at hn
    rw [Rex.ends, List.mem_append] at h
    rcases h with h | h
    · exact needs_lt hn.1 h
    · exact needs_lt hn.2 h
  | .star a, _, _, h, _ => by simp [Rex.needs] at h
  | .cap _ a, s, t, hn, h => needs_lt (r := a) hn h

theorem len_some {r : Rex} {s : List UInt8} {n : Nat} (h : r.len s = some n) (hn : r.needs = true) : 0 < n ∧ n ≤ s.length := by
  rw [len_rest, Option.map_eq_some_iff] at h
  obtain ⟨t, h1, rfl⟩ := h
  have := needs_lt hn (List.mem_of_mem_head? h1)
  omega

/-! ### Common forms -/

/-- A text of single characters. -/
def Rex.word : List Nat → Rex
  | [] => .eps
  | [c] => .cls ⟨false, [(c, c)]⟩
  | c :: w => .seq (.cls ⟨false, [(c, c)]⟩) (Rex.word w)

theorem byte_one {c : Nat} (hc : c < 0x80) (x : UInt8) : (Cls.byte ⟨false, [(c, c)]⟩ x) = decide (x.toNat = c) := by
  unfold Cls.byte
  by_cases h : x.toNat < 0x80
  · rw [if_pos h]
    simp only [Cls.has, List.any_cons, List.any_nil, Bool.or_false]
    by_cases e : x.toNat = c
    · simp [e]
    · have : (decide (c ≤ x.toNat) && decide (x.toNat ≤ c)) = false := by
        rw [Bool.and_eq_false_imp]
        simp only [decide_eq_true_eq, decide_eq_false_iff_not]
        omega
      simp [e, this]
  · rw [if_neg h]
    have : x.toNat ≠ c := by omega
    simp [this]

theorem one_rest {c : Nat} (hc : c < 0x80) (s : List UInt8) :
    (Rex.cls ⟨false, [(c, c)]⟩).ends decode s = match s with
      | [] => []
      | x :: t => if x.toNat = c then [t] else [] := by
  cases s with
  | nil => rfl
  | cons x t =>
    rw [ends_pos (by simpa [Cls.low] using hc) rfl, byte_one hc]
    simp

theorem word_ends : ∀ (w : List Nat) (s : List UInt8), (∀ c ∈ w, c < 0x80) →
    (Rex.word w).ends decode s = if w.isPrefixOf (s.map (·.toNat)) then [s.drop w.length] else []
  | [], s, _ => by simp [Rex.word, Rex.ends]
  | [c], s, h => by
    rw [Rex.word, one_rest (h c (by simp))]
    cases s with
    | nil => simp
    | cons x t =>
      by_cases e : x.toNat = c
      · simp [e]
      · have e' : ¬ c = x.toNat := fun h => e h.symm
        simp [e, e']
  | c :: d :: w, s, h => by
    rw [Rex.word, Rex.ends, one_rest (h c (by simp))]
    cases s with
    | nil => simp
    | cons x t =>
      by_cases e : x.toNat = c
      · simp only [e, if_true, List.flatMap_cons, List.flatMap_nil, List.append_nil]
        rw [word_ends (d :: w) t (fun c hc => h c (by simp [List.mem_cons.1 hc]))]
        simp [e]
      · have e' : ¬ c = x.toNat := fun h => e h.symm
        simp [e, e']
    · intro h; cases h

theorem word_rest {w : List Nat} (hw : ∀ c ∈ w, c < 0x80) (s : List UInt8) :
    (Rex.word w).rest decode s = if w.isPrefixOf (s.map (·.toNat)) then some (s.drop w.length) else none := by
  rw [Rex.rest, word_ends w s hw]
  split <;> rfl

theorem takeWhile_len {p : UInt8 → Bool} (s : List UInt8) : s.length - (s.dropWhile p).length = (s.takeWhile p).length := by
  have := congrArg List.length (List.takeWhile_append_dropWhile (p := p) (l := s))
  rw [List.length_append] at this
  omega

/-- A class once or more. -/
theorem plus_rest {c : Cls} (hc : c.low = true) (hn : c.neg = false) (x : UInt8) (s : List UInt8) :
    (Rex.seq (.cls c) (.star (.cls c))).rest decode (x :: s) = if c.byte x then some (s.dropWhile c.byte) else none := by
  cases h : c.byte x with
  | false =>
    rw [rest_none.2]; rfl
    exact dead_ends (r := .seq (.cls c) (.star (.cls c))) (by simp [Rex.low, hc]) (by simp [Rex.dead, h])
  | true =>
    rw [if_pos rfl]
    refine seq_rest (t := s) ?_ (star_rest hc s)
    rw [Rex.rest, ends_pos hc hn, h]; rfl

end Verif.Spec
